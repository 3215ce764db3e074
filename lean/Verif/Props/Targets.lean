import Verif.TargetsLemmas

/-!
# C01 (summary) and C03: what one-qubit and two-qubit subscripts denote
-/

namespace Blueqat

open Spec

/-- C01 (summary). The target iterator of a one-qubit gate succeeds with the list `L` exactly when the
subscript denotes `L` in the sense of Python indexing and slicing. -/
theorem C01_targets (n : Nat) (T : Targets) (L : List Int) :
    slicing T n = ⟨L, none⟩ ↔ TargetsDenote n T L :=
  slicing_eq_iff n T L

/-- Non-vacuity: `x[1:, 0]` on three qubits denotes `1, 2, 0`. -/
example : TargetsDenote (3 : Nat) (.tup [.atom (.slice (some 1) none none), .atom (.int 0)]) [1, 2, 0] := by
  rw [← C01_targets]
  simp [slicing, Gen.forEach, slicingItemAsSingle, slicingSinglevalue, sliceIndices, Gen.append]
  repeat (first | rw [loopUp]) <;> simp

/-- C03 (success). A two-qubit subscript is accepted exactly when it is a pair of sides denoting equally
many qubits with no position where control and target coincide, and then the pairs are the two sides
matched position by position. -/
theorem C03_pairs (n : Nat) (T : Targets) (ps : List (Int × Int)) :
    qubitPairs T n = .ok ps ↔
      ∃ a b cs ts, T = .tup [a, b] ∧ ItemDenotes n a cs ∧ ItemDenotes n b ts ∧
        cs.length = ts.length ∧ ps = cs.zip ts ∧ ∀ p ∈ ps, p.1 ≠ p.2 := by
  constructor
  · intro h
    match T, h with
    | .tup [a, b], h =>
      simp only [qubitPairs] at h
      split at h
      · cases h
      · rename_i cs hc
        split at h
        · cases h
        · rename_i ts ht
          rw [toList_eq_ok_iff, slicingItem_eq_iff] at hc ht
          split_ifs at h with h1 h2
          · cases h
            refine ⟨a, b, cs, ts, rfl, hc, ht, by simpa using h1, rfl, ?_⟩
            intro p hp hpp
            exact h2 (by rw [List.any_eq_true]; exact ⟨p, hp, by simpa using hpp⟩)
    | .one _, h => simp [qubitPairs] at h
    | .tup [], h => simp [qubitPairs] at h
    | .tup [_], h => simp [qubitPairs] at h
    | .tup (_ :: _ :: _ :: _), h => simp [qubitPairs] at h
  · rintro ⟨a, b, cs, ts, rfl, hc, ht, hl, rfl, hne⟩
    rw [← slicingItem_eq_iff, ← toList_eq_ok_iff] at hc ht
    simp only [qubitPairs, hc, ht]
    rw [if_neg (by simpa using hl), if_neg]
    rw [List.any_eq_true]
    rintro ⟨p, hp, hpp⟩
    exact hne p hp (by simpa using hpp)

/-- C03 (errors). When both sides denote qubits, the call raises ValueError exactly when the numbers of
qubits differ or some pair coincides; a subscript that is not a pair always raises ValueError. -/
theorem C03_errors (n : Nat) :
    (∀ a b cs ts, ItemDenotes n a cs → ItemDenotes n b ts →
      (qubitPairs (.tup [a, b]) n = .error .valueError ↔
        cs.length ≠ ts.length ∨ ∃ p ∈ cs.zip ts, p.1 = p.2)) ∧
    (∀ a, qubitPairs (.one a) n = .error .valueError) ∧
    (∀ xs, xs.length ≠ 2 → qubitPairs (.tup xs) n = .error .valueError) := by
  refine ⟨?_, fun _ => rfl, ?_⟩
  · intro a b cs ts hc ht
    rw [← slicingItem_eq_iff, ← toList_eq_ok_iff] at hc ht
    simp only [qubitPairs, hc, ht]
    by_cases h1 : cs.length ≠ ts.length
    · simp [h1]
    · rw [if_neg h1]
      by_cases h2 : (cs.zip ts).any (fun p => p.1 == p.2) = true
      · rw [if_pos h2]
        simp only [true_iff]
        right
        rw [List.any_eq_true] at h2
        obtain ⟨p, hp, hpp⟩ := h2
        exact ⟨p, hp, by simpa using hpp⟩
      · rw [if_neg h2]
        simp only [reduceCtorEq, false_iff]
        rintro (h | ⟨p, hp, hpp⟩)
        · exact h1 h
        · exact h2 (by rw [List.any_eq_true]; exact ⟨p, hp, by simpa using hpp⟩)
  · intro xs h
    match xs, h with
    | [], _ => rfl
    | [_], _ => rfl
    | _ :: _ :: _ :: _, _ => rfl

/-- Non-vacuity of `C03_pairs`: `cx[0:2, 2:4]` on four qubits; of `C03_errors`: `cx[0:2, 1]`, `cx[1, 1]`. -/
example : qubitPairs (.tup [.tup [.int 0, .int 1], .tup [.int 2, .int (-1)]]) 4 = .ok [(0, 2), (1, 3)] ∧
    qubitPairs (.tup [.tup [.int 0, .int 1], .atom (.int 1)]) 4 = .error .valueError ∧
    qubitPairs (.tup [.atom (.int 1), .atom (.int (-3))]) 4 = .error .valueError := by
  refine ⟨by decide, by decide, by decide⟩

end Blueqat
