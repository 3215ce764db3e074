import Verif.Spec.Qasm
import Verif.Spec.Shots

/-!
# Specification: an ideal executor of OpenQASM programs

Every shot starts from the all-zero state with all classical bits 0 and uses the random numbers the previous shot left.
As Qiskit does, the classical register is written with the last bit first: `c[n-1]...c[0]`.
-/

namespace Spec

/-- The final machine states of `k` shots of a program. -/
noncomputable def programShots (lib : String → List ℝ → List ℕ → Option (List Basic)) (n : ℕ) (stmts : List QStmt) :
    ℕ → (ℕ → ℝ) → Option (List MState)
  | 0, _ => some []
  | k + 1, rnd =>
    match qasmRun lib n stmts (initState rnd) with
    | none => none
    | some s =>
      match programShots lib n stmts k s.rnd with
      | none => none
      | some l => some (s :: l)

/-- The classical register as Qiskit prints it: `c[n-1]...c[0]`. -/
def registerText (n : ℕ) (creg : ℕ → Bool) : String :=
  String.ofList ((List.range n).reverse.map (fun q => if creg q then '1' else '0'))

/-- `counts` are the counts of `k` shots of the program text: the text is read, its shots are run, and every key is
there once with the number of shots that ended with this register. -/
def IdealCounts (read : String → Option ℝ) (lib : String → List ℝ → List ℕ → Option (List Basic)) (text : String) (k : ℕ)
    (rnd : ℕ → ℝ) (counts : List (String × ℕ)) : Prop :=
  ∃ n m stmts states, parseProgram read text = some (n, m, stmts) ∧ programShots lib n stmts k rnd = some states ∧
    (counts.map Prod.fst).Nodup ∧
    ∀ key, countOf counts key = states.countP (fun s => decide (registerText m s.creg = key))

end Spec
