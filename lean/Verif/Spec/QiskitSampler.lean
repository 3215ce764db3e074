import Verif.Spec.Ibmq
import Verif.Spec.Vqe
import Mathlib.Data.Nat.Digits.Defs

/-!
# Specification: counts of observed outcomes, written in binary or hexadecimal
-/

namespace Spec

noncomputable section

/-- The number whose binary digit `q` is the classical bit `q`. -/
def registerNumber (n : ℕ) (creg : ℕ → Bool) : ℕ := ∑ q ∈ Finset.range n, if creg q then 2 ^ q else 0

/-- The hexadecimal digit for a number below 16. -/
def hexChar (d : ℕ) : Char := "0123456789abcdef".toList.getD d '0'

/-- The classical register as a hexadecimal number with the prefix `0x`. -/
def hexText (n : ℕ) (creg : ℕ → Bool) : String :=
  let v := registerNumber n creg
  String.ofList ('0' :: 'x' :: if v = 0 then ['0'] else ((Nat.digits 16 v).map hexChar).reverse)

/-- `counts` are the counts of the outcomes observed in `k` shots of the program text, the registers being written as `txt`
says: every outcome that occurred is there once with the number of its occurrences, and no other. -/
def ObservedCounts (txt : ℕ → (ℕ → Bool) → String) (read : String → Option ℝ)
    (lib : String → List ℝ → List ℕ → Option (List Basic)) (text : String) (k : ℕ) (rnd : ℕ → ℝ)
    (counts : List (String × ℕ)) : Prop :=
  ∃ n m stmts states, parseProgram read text = some (n, m, stmts) ∧ programShots lib n stmts k rnd = some states ∧
    (counts.map Prod.fst).Nodup ∧ (∀ p ∈ counts, 0 < p.2) ∧
    ∀ key, countOf counts key = states.countP (fun s => decide (txt m s.creg = key))

end

end Spec
