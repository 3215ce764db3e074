import Verif.Spec.Circuit

/-!
# Specification: OpenQASM 2 statements, their text, their meaning, and a parser

The meaning follows "Open Quantum Assembly Language" (arXiv:1707.03429): the built-in gates are `U(θ,φ,λ)` =
`Rz(φ)Ry(θ)Rz(λ)` and `CX`; every other gate is the macro of its name in the paper's `qelib1.inc`.
-/

namespace Spec

noncomputable section

/-- A statement of an OpenQASM program over one quantum register `q` and one classical register `c`. -/
inductive QStmt where
  | gate (name : String) (params : List ℝ) (qs : List ℕ)
  | measure (q c : ℕ)
  | reset (q : ℕ)

/-- The numbers written in a statement. -/
def QStmt.params : QStmt → List ℝ
  | .gate _ ps _ => ps
  | _ => []

/-! ## Text -/

/-- Texts separated by `sep`. -/
def joinWith (sep : String) : List String → String
  | [] => ""
  | [a] => a
  | a :: b :: rest => a ++ sep ++ joinWith sep (b :: rest)

/-- `q[i]`. -/
def qubitText (i : ℕ) : String := "q[" ++ toString i ++ "]"

/-- `(p1,p2,...)`, nothing if there are no parameters. -/
def paramsText (fmt : ℝ → String) : List ℝ → String
  | [] => ""
  | ps => "(" ++ joinWith "," (ps.map fmt) ++ ")"

/-- The statement as text. -/
def QStmt.text (fmt : ℝ → String) : QStmt → String
  | .gate name ps qs => name ++ paramsText fmt ps ++ " " ++ joinWith "," (qs.map qubitText) ++ ";"
  | .measure q c => "measure q[" ++ toString q ++ "] -> c[" ++ toString c ++ "];"
  | .reset q => "reset q[" ++ toString q ++ "];"

/-- An identifier of the language: a lower-case letter, then letters and digits, and not a keyword. -/
def IsIdent (name : String) : Prop :=
  (∃ c cs, name.toList = c :: cs ∧ c.isLower = true ∧ ∀ d ∈ cs, d.isAlphanum = true) ∧
    name ∉ ["opaque", "gate", "if", "barrier", "measure", "reset", "qreg", "creg", "include", "pi", "sin", "cos", "tan",
      "exp", "ln", "sqrt"]

/-- The statement uses an identifier and declared, pairwise different qubits of a register of size `n`. -/
def QStmt.WellFormed (n : ℕ) : QStmt → Prop
  | .gate name _ qs => IsIdent name ∧ qs ≠ [] ∧ qs.Nodup ∧ ∀ q ∈ qs, q < n
  | .measure q c => q < n ∧ c < n
  | .reset q => q < n

/-- A line: a statement and possibly a comment. -/
structure QLine where
  stmt : QStmt
  comment : Option String

/-- The statement is well formed and the comment stays on its line. -/
def QLine.WellFormed (n : ℕ) (l : QLine) : Prop :=
  l.stmt.WellFormed n ∧ ∀ c, l.comment = some c → '\n' ∉ c.toList

def QLine.text (fmt : ℝ → String) (l : QLine) : String :=
  l.stmt.text fmt ++ match l.comment with
    | none => ""
    | some c => " //" ++ c

/-- The four lines every program starts with. -/
def header (n : ℕ) : List String :=
  ["OPENQASM 2.0;", "include \"qelib1.inc\";", "qreg q[" ++ toString n ++ "];", "creg c[" ++ toString n ++ "];"]

/-- The text of a program. -/
def programText (fmt : ℝ → String) (n : ℕ) (lines : List QLine) : String :=
  joinWith "\n" (header n ++ lines.map (QLine.text fmt))

/-! ## Meaning -/

/-- The built-in gates. -/
inductive Basic where
  | u (θ φ lam : ℝ) (q : ℕ)
  | cx (c t : ℕ)

def Basic.apply : Basic → Vec → Vec
  | .u θ φ lam q => app (mU3 θ φ lam) q
  | .cx c t => ctrl c (app mX t)

def applyAll (bs : List Basic) (ψ : Vec) : Vec := bs.foldl (fun ψ b => b.apply ψ) ψ

open Real (pi) in
/-- `qelib1.inc`: the one-qubit gates. -/
def qelib1 (name : String) (ps : List ℝ) (q : ℕ) : Option Basic :=
  match name, ps with
  | "u3", [θ, φ, lam] => some (.u θ φ lam q)
  | "u2", [φ, lam] => some (.u (pi / 2) φ lam q)
  | "u1", [lam] => some (.u 0 0 lam q)
  | "id", [] => some (.u 0 0 0 q)
  | "x", [] => some (.u pi 0 pi q)
  | "y", [] => some (.u pi (pi / 2) (pi / 2) q)
  | "z", [] => some (.u 0 0 pi q)
  | "h", [] => some (.u (pi / 2) 0 pi q)
  | "s", [] => some (.u 0 0 (pi / 2) q)
  | "sdg", [] => some (.u 0 0 (-(pi / 2)) q)
  | "t", [] => some (.u 0 0 (pi / 4) q)
  | "tdg", [] => some (.u 0 0 (-(pi / 4)) q)
  | "rx", [θ] => some (.u θ (-(pi / 2)) (pi / 2) q)
  | "ry", [θ] => some (.u θ 0 0 q)
  | "rz", [φ] => some (.u 0 0 φ q)
  | _, _ => none

section
open Real (pi)

/-- Shorthands for the bodies below. -/
def qx (a : ℕ) : Basic := .u pi 0 pi a
def qh (a : ℕ) : Basic := .u (pi / 2) 0 pi a
def qu1 (lam : ℝ) (a : ℕ) : Basic := .u 0 0 lam a
def qs (a : ℕ) : Basic := .u 0 0 (pi / 2) a
def qsdg (a : ℕ) : Basic := .u 0 0 (-(pi / 2)) a
def qt (a : ℕ) : Basic := .u 0 0 (pi / 4) a
def qtdg (a : ℕ) : Basic := .u 0 0 (-(pi / 4)) a

/-- The body of `ccx a,b,c`. -/
def qccx (a b c : ℕ) : List Basic :=
  [qh c, .cx b c, qtdg c, .cx a c, qt c, .cx b c, qtdg c, .cx a c, qt b, qt c, qh c, .cx a b, qt a, qtdg b, .cx a b]

end

/-- `qelib1.inc`: the body of the gate `name(ps)` on the qubits `qs`; `none`: there is no such gate. -/
def qelib (name : String) (ps : List ℝ) (qs : List ℕ) : Option (List Basic) :=
  match qs with
  | [q] => (qelib1 name ps q).map fun b => [b]
  | [a, b] =>
    match name, ps with
    | "cx", [] => some [.cx a b]
    | "cz", [] => some [qh b, .cx a b, qh b]
    | "cy", [] => some [qsdg b, .cx a b, Spec.qs b]
    | "swap", [] => some [.cx a b, .cx b a, .cx a b]
    | "ch", [] => some [qh b, qsdg b, .cx a b, qh b, qt b, .cx a b, qt b, qh b, Spec.qs b, qx b, Spec.qs a]
    | "crz", [lam] => some [qu1 (lam / 2) b, .cx a b, qu1 (-lam / 2) b, .cx a b]
    | "cu1", [lam] => some [qu1 (lam / 2) a, .cx a b, qu1 (-lam / 2) b, .cx a b, qu1 (lam / 2) b]
    | "cu3", [θ, φ, lam] => some [qu1 ((lam - φ) / 2) b, .cx a b, .u (-θ / 2) 0 (-(φ + lam) / 2) b, .cx a b,
        .u (θ / 2) φ 0 b]
    | _, _ => none
  | [a, b, c] =>
    match name, ps with
    | "ccx", [] => some (qccx a b c)
    | "cswap", [] => some (.cx c b :: qccx a b c ++ [.cx c b])
    | _, _ => none
  | _ => none

/-- `qelib1.inc` followed by the definition `gate cu2(phi,lambda) c,t { cu3(pi/2,phi,lambda) c,t; }`, which the file
itself does not have. -/
def qelibCu2 (name : String) (ps : List ℝ) (qs : List ℕ) : Option (List Basic) :=
  match name, ps with
  | "cu2", [φ, lam] => qelib "cu3" [Real.pi / 2, φ, lam] qs
  | _, _ => qelib name ps qs

/-- One statement on the machine, gates being those of the library `lib`; `none`: the statement has no meaning.
Measurement and reset are those of `Elem.step`, the outcome going to the classical bit named. -/
def QStmt.step (lib : String → List ℝ → List ℕ → Option (List Basic)) (n : ℕ) (s : MState) : QStmt → Option MState
  | .gate name ps qs => (lib name ps qs).map fun bs => { s with psi := applyAll bs s.psi }
  | .measure q c =>
    if s.rnd 0 < prob n q false s.psi then
      some ⟨collapse n q false s.psi, Function.update s.creg c false, fun k => s.rnd (k + 1)⟩
    else
      some ⟨collapse n q true s.psi, Function.update s.creg c true, fun k => s.rnd (k + 1)⟩
  | .reset q => some ((Elem.reset q).step phDoc n s)

/-- A list of statements, first to last. -/
def qasmRun (lib : String → List ℝ → List ℕ → Option (List Basic)) (n : ℕ) (stmts : List QStmt) (s : MState) :
    Option MState := stmts.foldlM (fun s st => st.step lib n s) s

/-- Same classical bits and random numbers, and the same amplitudes up to one global phase. -/
def SameUpToPhase (s s' : MState) : Prop :=
  s.creg = s'.creg ∧ s.rnd = s'.rnd ∧ ∃ z : ℂ, ‖z‖ = 1 ∧ s.psi = fun i => z * s'.psi i

/-- On every state, the statements do what the operations do, up to a global phase. -/
def Means (lib : String → List ℝ → List ℕ → Option (List Basic)) (n : ℕ) (stmts : List QStmt) (es : List Elem) : Prop :=
  ∀ s, ∃ s', qasmRun lib n stmts s = some s' ∧ SameUpToPhase s' (steps phDoc n es s)

/-! ## Parser -/

/-- Drop a comment. -/
def cutComment : List Char → List Char
  | [] => []
  | c :: cs => if c = '/' ∧ cs.head? = some '/' then [] else c :: cutComment cs

/-- Split at every occurrence of a character. -/
def splitChar (c : Char) : List Char → List (List Char)
  | [] => [[]]
  | x :: xs =>
    if x = c then [] :: splitChar c xs
    else match splitChar c xs with
      | [] => [[x]]
      | h :: t => (x :: h) :: t

/-- `r[digits]` for the register `r`. -/
def parseRef (r : Char) (s : List Char) : Option ℕ :=
  match s with
  | r' :: '[' :: ds => if r' = r ∧ ds.getLast? = some ']' then (String.ofList ds.dropLast).toNat? else none
  | _ => none

/-- A gate name with its parameters. -/
def parseHead (read : String → Option ℝ) (s : List Char) : Option (String × List ℝ) :=
  match splitChar '(' s with
  | [name] => some (String.ofList name, [])
  | [name, ps] =>
    if ps.getLast? = some ')' then
      ((splitChar ',' ps.dropLast).mapM fun p => read (String.ofList p)).map fun ps => (String.ofList name, ps)
    else none
  | _ => none

/-- A statement without its semicolon. -/
def parseBody (read : String → Option ℝ) (s : List Char) : Option QStmt :=
  match splitChar ' ' s with
  | [m, q, arrow, c] =>
    if m = "measure".toList ∧ arrow = "->".toList then
      match parseRef 'q' q, parseRef 'c' c with
      | some q, some c => some (.measure q c)
      | _, _ => none
    else none
  | [head, args] =>
    if head = "reset".toList then (parseRef 'q' args).map .reset
    else
      match parseHead read head, (splitChar ',' args).mapM (parseRef 'q') with
      | some (name, ps), some qs => some (.gate name ps qs)
      | _, _ => none
  | _ => none

/-- A line: statement, semicolon, blanks, comment. -/
def parseLine (read : String → Option ℝ) (s : List Char) : Option QStmt :=
  match splitChar ';' (cutComment s) with
  | [body, rest] => if rest.all (· = ' ') then parseBody read body else none
  | _ => none

/-- `kind r[n];` -/
def parseReg (kind : String) (r : Char) (s : List Char) : Option ℕ :=
  match splitChar ';' s with
  | [body, []] =>
    match splitChar ' ' body with
    | [k, a] => if k = kind.toList then parseRef r a else none
    | _ => none
  | _ => none

/-- A program: register sizes and statements. -/
def parseProgram (read : String → Option ℝ) (text : String) : Option (ℕ × ℕ × List QStmt) :=
  match splitChar '\n' text.toList with
  | l1 :: l2 :: l3 :: l4 :: ls =>
    if l1 = "OPENQASM 2.0;".toList ∧ l2 = "include \"qelib1.inc\";".toList then
      match parseReg "qreg" 'q' l3, parseReg "creg" 'c' l4, ls.mapM (parseLine read) with
      | some n, some m, some stmts => some (n, m, stmts)
      | _, _, _ => none
    else none
  | _ => none

/-- A way to write the numbers of `S` that `read` reads back, without the punctuation of the language. (There are more
reals than texts, so `S` cannot be all of them.) -/
def NumberFormat (fmt : ℝ → String) (read : String → Option ℝ) (S : Set ℝ) : Prop :=
  (∀ x ∈ S, read (fmt x) = some x) ∧ ∀ x ∈ S, ∀ c ∈ (fmt x).toList, c ∉ [' ', ',', '(', ')', ';', '/', '\n']

/-- A set of angles closed under what the decompositions of gates do with angles. -/
structure AngleSet (S : Set ℝ) : Prop where
  zero : 0 ∈ S
  pi : Real.pi ∈ S
  add : ∀ x ∈ S, ∀ y ∈ S, x + y ∈ S
  neg : ∀ x ∈ S, -x ∈ S
  half : ∀ x ∈ S, x / 2 ∈ S

/-- The angles of a one-qubit gate. -/
def angles1 : Blueqat.G1 → List ℝ
  | .rx θ | .ry θ | .rz θ | .phase θ | .u1 θ => [θ]
  | .u2 φ lam => [φ, lam]
  | .u3 θ φ lam => [θ, φ, lam]
  | _ => []

/-- The angles of a two-qubit gate. -/
def angles2 : Blueqat.G2 → List ℝ
  | .crx θ | .cry θ | .crz θ | .cphase θ | .rxx θ | .ryy θ | .rzz θ | .cu1 θ => [θ]
  | .cu2 φ lam => [φ, lam]
  | .cu3 θ φ lam => [θ, φ, lam]
  | _ => []

/-- All angles of the gate are in `S`. -/
def AnglesIn (S : Set ℝ) : Blueqat.Gate → Prop
  | .g1 k _ => ∀ x ∈ angles1 k, x ∈ S
  | .g2 k _ => ∀ x ∈ angles2 k, x ∈ S
  | _ => True

end

end Spec
