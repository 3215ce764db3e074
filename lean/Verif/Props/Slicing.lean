import Verif.SlicingLemmas

/-!
# C01: slice targets mean Python slices
-/

namespace Blueqat

open Spec

/-- C01 (slices). For every slice with non-zero step and every register size, the generator yields exactly
the qubits Python's `range(n)[start:stop:step]` selects, in order, and raises nothing. -/
theorem C01_slice (n : Nat) (start stop step : Option Int) (h : step ≠ some 0) :
    ∃ L, slicing (.one (.slice start stop step)) n = ⟨L, none⟩ ∧
      Enumerates step (SliceSelects n start stop step) L := by
  have hk : step.getD 1 ≠ 0 := by
    cases step with
    | none => simp
    | some k => intro hh; exact h (by simpa using hh)
  by_cases hpos : 0 < step.getD 1
  · have hneg : ¬ step.getD 1 < 0 := by omega
    refine ⟨_, by simp [slicing, slicingSinglevalue, sliceIndices, hk, hneg, hpos]; rfl, ?_, ?_⟩
    · intro q
      rw [mem_loopUp _ _ _ hpos]
      simp only [SliceSelects, hpos, if_true]
      cases start with
      | none =>
        cases stop with
        | none => simp
        | some b =>
          simp only [Option.mem_def, Option.some.injEq, forall_eq', Option.map_none, Option.getD_none,
            max_self, reduceCtorEq, IsEmpty.forall_iff, implies_true, true_and, pyIndex]
          split_ifs <;> constructor <;> rintro ⟨h1, h2, h3⟩ <;> refine ⟨by omega, by omega, ?_⟩ <;>
            first
              | exact h3
              | exact ⟨by omega, h3⟩
              | exact h3.2
      | some a =>
        have key : (if a < 0 then max (a + (n:Int)) 0 else min a n) ≤ q → q < n →
            (if a < 0 then max (a + (n:Int)) 0 else min a n) = max 0 (pyIndex n a) := by
          unfold pyIndex; split_ifs <;> omega
        have key2 : (if a < 0 then max (a + (n:Int)) 0 else min a n) ≤ q ∧ q < n ↔
            (0 ≤ q ∧ q < n ∧ pyIndex n a ≤ q) := by
          unfold pyIndex; split_ifs <;> omega
        cases stop with
        | none =>
          simp only [Option.mem_def, Option.some.injEq, forall_eq', Option.map_some, Option.getD_some,
            reduceCtorEq, IsEmpty.forall_iff, implies_true, true_and]
          constructor
          · rintro ⟨h1, h2, h3⟩
            have := key2.1 ⟨h1, h2⟩
            rw [key h1 h2] at h3
            exact ⟨this.1, this.2.1, this.2.2, h3⟩
          · rintro ⟨h1, h2, h3, h4⟩
            have := key2.2 ⟨h1, h2, h3⟩
            refine ⟨this.1, h2, ?_⟩
            rw [key this.1 h2]; exact h4
        | some b =>
          simp only [Option.mem_def, Option.some.injEq, forall_eq', Option.map_some, Option.getD_some]
          have key3 : q < (if b < 0 then max (b + (n:Int)) 0 else min b n) ↔
              (q < n ∧ q < pyIndex n b) ∨ (q < 0 ∧ q < (if b < 0 then max (b + (n:Int)) 0 else min b n)) := by
            unfold pyIndex; split_ifs <;> omega
          constructor
          · rintro ⟨h1, h2, h3⟩
            have h0 : 0 ≤ q := by
              have : 0 ≤ (if a < 0 then max (a + (n:Int)) 0 else min a n) := by split_ifs <;> omega
              omega
            have h2' := (key3.1 h2).resolve_right (by omega)
            have := key2.1 ⟨h1, h2'.1⟩
            rw [key h1 h2'.1] at h3
            exact ⟨this.1, this.2.1, this.2.2, h2'.2, h3⟩
          · rintro ⟨h1, h2, h3, h4, h5⟩
            have := key2.2 ⟨h1, h2, h3⟩
            refine ⟨this.1, key3.2 (Or.inl ⟨h2, h4⟩), ?_⟩
            rw [key this.1 h2]; exact h5
    · simp only [hpos, if_true]; exact pairwise_loopUp _ _ _
  · have hneg : step.getD 1 < 0 := by omega
    refine ⟨_, by simp [slicing, slicingSinglevalue, sliceIndices, hk, hneg, hpos]; rfl, ?_, ?_⟩
    · intro q
      rw [mem_loopDown _ _ _ hneg]
      simp only [SliceSelects, hpos, if_false]
      have keystop : ∀ b : Int, 0 ≤ q → q < n → ((if b < 0 then max (b + (n:Int)) (-1) else min b (n - 1)) < q
          ↔ pyIndex n b < q) := by
        intro b _ _; unfold pyIndex; split_ifs <;> omega
      have keystop' : ∀ b : Int, -1 ≤ (if b < 0 then max (b + (n:Int)) (-1) else min b (n - 1)) := by
        intro b; split_ifs <;> omega
      have hs : ∀ s : Int, (s = (match stop with
            | none => -1
            | some x => if x < 0 then max (x + (n:Int)) (-1) else min x (n - 1))) →
          q < n → ((s < q) ↔ (0 ≤ q ∧ ∀ b ∈ stop, pyIndex n b < q)) := by
        intro s hs hq
        cases stop with
        | none => simp at hs ⊢; omega
        | some b =>
          simp at hs
          subst hs
          simp only [Option.mem_def, Option.some.injEq, forall_eq']
          constructor
          · intro h1
            have := keystop' b
            have h0 : 0 ≤ q := by omega
            exact ⟨h0, (keystop b h0 hq).1 h1⟩
          · rintro ⟨h0, h1⟩; exact (keystop b h0 hq).2 h1
      cases start with
      | none =>
        simp only [Option.mem_def, reduceCtorEq, IsEmpty.forall_iff, implies_true, true_and,
          Option.map_none, Option.getD_none, min_self]
        constructor
        · rintro ⟨h1, h2, h3⟩
          have := (hs _ rfl (by omega)).1 h2
          exact ⟨this.1, by omega, this.2, h3⟩
        · rintro ⟨h1, h2, h3, h4⟩
          exact ⟨by omega, (hs _ rfl h2).2 ⟨h1, h3⟩, h4⟩
      | some a =>
        simp only [Option.mem_def, Option.some.injEq, forall_eq', Option.map_some, Option.getD_some]
        have key : 0 ≤ q → q ≤ (if a < 0 then max (a + (n:Int)) (-1) else min a (n - 1)) →
            (if a < 0 then max (a + (n:Int)) (-1) else min a (n - 1)) = min ((n:Int) - 1) (pyIndex n a) := by
          unfold pyIndex; split_ifs <;> omega
        have key2 : 0 ≤ q → (q ≤ (if a < 0 then max (a + (n:Int)) (-1) else min a (n - 1)) ↔
            (q < n ∧ q ≤ pyIndex n a)) := by
          unfold pyIndex; split_ifs <;> omega
        have key4 : q ≤ (if a < 0 then max (a + (n:Int)) (-1) else min a (n - 1)) → q < n := by
          split_ifs <;> omega
        constructor
        · rintro ⟨h1, h2, h3⟩
          have hsq := (hs _ rfl (key4 h1)).1 h2
          rw [key hsq.1 h1] at h3
          exact ⟨hsq.1, key4 h1, ((key2 hsq.1).1 h1).2, hsq.2, h3⟩
        · rintro ⟨h1, h2, h3, h4, h5⟩
          have h6 := (key2 h1).2 ⟨h2, h3⟩
          refine ⟨h6, (hs _ rfl h2).2 ⟨h1, h4⟩, ?_⟩
          rw [key h1 h6]; exact h5
    · simp only [hpos, if_false]; exact pairwise_loopDown _ _ _

/-- Non-vacuity of `C01_slice`: `range(7)[-1:0:-2]` is `6, 4, 2`. -/
example : slicing (.one (.slice (some (-1)) (some 0) (some (-2)))) 7 = ⟨[6, 4, 2], none⟩ ∧
    (some (-2 : Int)) ≠ some 0 := by
  refine ⟨?_, by decide⟩
  simp [slicing, slicingSinglevalue, sliceIndices]
  repeat (first | rw [loopDown]) <;> simp

/-- C01 (zero step). A slice with step 0 is rejected with ValueError before any qubit is yielded. -/
theorem C01_slice_step_zero (n : Nat) (start stop : Option Int) :
    slicing (.one (.slice start stop (some 0))) n = ⟨[], some .valueError⟩ := by
  simp [slicing, slicingSinglevalue, sliceIndices]

/-- C01 (integers). An integer target denotes the position Python's indexing rule gives it;
a value that is not an integer raises TypeError. -/
theorem C01_int (n : Nat) (i : Int) :
    slicing (.one (.int i)) n = ⟨[pyIndex n i], none⟩ ∧
    slicing (.one .bad) n = ⟨[], some .typeError⟩ := by
  constructor
  · simp only [slicing, slicingSinglevalue, pyIndex]; split_ifs <;> rfl
  · rfl

/-- C01 (tuples). A tuple of subscripts selects the concatenation of what its members select, in order. -/
theorem C01_tuple (n : Nat) (as : List Atom) (sel : Atom → List Int)
    (h : ∀ a ∈ as, slicing (.one a) n = ⟨sel a, none⟩) :
    slicing (.tup (as.map .atom)) n = ⟨as.flatMap sel, none⟩ := by
  simp only [slicing]
  have : Gen.forEach (fun x => slicingItemAsSingle x (n:Int)) (as.map .atom)
      = Gen.forEach (fun a => slicingSinglevalue a (n:Int)) as := by
    clear h
    induction as with
    | nil => rfl
    | cons a as ih =>
      simp only [Gen.forEach, List.map_cons, ih]; rfl
  rw [this]
  exact Gen.forEach_ok _ sel as h

/-- Non-vacuity of `C01_tuple`: `[2, -1]` on four qubits. -/
example : slicing (.tup [.atom (.int 2), .atom (.int (-1))]) 4 = ⟨[2, 3], none⟩ := by
  decide

end Blueqat
