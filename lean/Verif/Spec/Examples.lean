import Verif.Spec.Diagonal

/-!
# Specification: cuts of graphs, partitions of numbers, factors

`side` says on which side of a cut, or in which of two groups, something is.
-/

namespace Spec

noncomputable section

/-- The number of edges whose ends are on different sides (parallel edges are counted separately). -/
def cutSize (edges : List (ℕ × ℕ)) (side : ℕ → Bool) : ℕ := (edges.filter (fun e => side e.1 ≠ side e.2)).length

/-- The sum of the numbers `nums[i]` for which `side i` is `s`. -/
def groupSum (nums : List ℝ) (side : ℕ → Bool) (s : Bool) : ℝ :=
  ∑ i ∈ (Finset.range nums.length).filter (fun i => side i = s), nums.getD i 0

/-- The odd number with the binary digits `bit 0`, ..., `bit (n - 1)` in front of the last one. -/
def oddNumber (n : ℕ) (bit : ℕ → Bool) : ℕ := 1 + ∑ i ∈ Finset.range n, if bit i then 2 ^ (i + 1) else 0

/-- The odd number with `n₁` free binary digits, the first bits, and the one with `n₂`, the next bits. -/
def oddPair (n₁ n₂ : ℕ) (bit : ℕ → Bool) : ℕ × ℕ := (oddNumber n₁ bit, oddNumber n₂ (fun i => bit (n₁ + i)))

/-- The pairs up to and with the first one whose product is `num`. -/
def untilProduct (num : ℕ) : List (ℕ × ℕ) → List (ℕ × ℕ)
  | [] => []
  | pq :: rest => if pq.1 * pq.2 = num then [pq] else pq :: untilProduct num rest

end

end Spec
