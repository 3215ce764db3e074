import Verif.WqNames
import Verif.Spec.Shots
import Verif.NpShots
import Verif.PauliIndep

/-!
# C76, C77: counting results, making symbols
-/

set_option linter.unusedSimpArgs false
set_option linter.unusedVariables false

namespace Blueqat

open Spec

/-! ## C76 -/

theorem foldl_add_count (l : List String) (c : Counter) (k : String) :
    countOf (l.foldl Counter.add c) k = countOf c k + l.count k := by
  induction l generalizing c with
  | nil => simp
  | cons x l ih =>
    rw [List.foldl_cons, ih, counter_add_count, List.count_cons]
    by_cases h : k = x
    · subst h; simp; omega
    · have : ¬x = k := fun hh => h hh.symm
      simp [h, this]

theorem foldl_add_total (l : List String) (c : Counter) : total (l.foldl Counter.add c) = total c + l.length := by
  induction l generalizing c with
  | nil => simp
  | cons x l ih => rw [List.foldl_cons, ih, counter_add_total, List.length_cons]; omega

theorem rowText_toList (row : List ℤ) : (rowText row).toList = (row.map fun x => (toString x).toList).flatten := by
  have key : ∀ (l : List String) (acc : String), (l.foldl (fun r s => r ++ s) acc).toList =
      acc.toList ++ (l.map String.toList).flatten := by
    intro l
    induction l with
    | nil => intro acc; simp
    | cons x l ih => intro acc; rw [List.foldl_cons, ih, String.toList_append]; simp
  have := key (row.map toString) ""
  simpa [rowText, String.join, List.map_map, Function.comp_def] using this

theorem bit_text {x : ℤ} (h : x = 0 ∨ x = 1) : (toString x).toList = [if x = 1 then '1' else '0'] := by
  rcases h with rfl | rfl <;> decide

theorem rowText_bits {row : List ℤ} (h : ∀ x ∈ row, x = 0 ∨ x = 1) :
    (rowText row).toList = row.map fun x => if x = 1 then '1' else '0' := by
  rw [rowText_toList]
  induction row with
  | nil => rfl
  | cons x row ih =>
    rw [List.map_cons, List.flatten_cons, bit_text (h x (by simp)), ih fun y hy => h y (by simp [hy])]; rfl

theorem rowText_inj {a b : List ℤ} (ha : ∀ x ∈ a, x = 0 ∨ x = 1) (hb : ∀ x ∈ b, x = 0 ∨ x = 1)
    (h : rowText a = rowText b) : a = b := by
  have h1 := congrArg String.toList h
  rw [rowText_bits ha, rowText_bits hb] at h1
  induction a generalizing b with
  | nil => cases b with
    | nil => rfl
    | cons y b => simp at h1
  | cons x a ih => cases b with
    | nil => simp at h1
    | cons y b =>
      simp only [List.map_cons, List.cons.injEq] at h1
      have hab := ih (fun z hz => ha z (by simp [hz])) (fun z hz => hb z (by simp [hz]))
        (by apply String.toList_injective; rw [rowText_bits fun z hz => ha z (by simp [hz]),
              rowText_bits fun z hz => hb z (by simp [hz])]; exact h1.2) h1.2
      have hxy : x = y := by
        rcases ha x (by simp) with rfl | rfl <;> rcases hb y (by simp) with rfl | rfl <;> simp_all
      rw [hxy, hab]

/-- C76. `counter` of several results of bits: every result is counted under its digits as often as it occurs, and
nothing else is counted. -/
theorem C76_counter_partial (rows : List (List ℤ)) (hb : ∀ r ∈ rows, ∀ x ∈ r, x = 0 ∨ x = 1) :
    ∃ c, wqCounter (.many rows) = .ok c ∧ total c = rows.length ∧
      (∀ r : List ℤ, (∀ x ∈ r, x = 0 ∨ x = 1) →
        countOf c (String.ofList (r.map fun x => if x = 1 then '1' else '0')) = rows.count r) ∧
      ∀ s, 0 < countOf c s → ∃ r ∈ rows, s = String.ofList (r.map fun x => if x = 1 then '1' else '0') := by
  have ht : ∀ r : List ℤ, (∀ x ∈ r, x = 0 ∨ x = 1) →
      rowText r = String.ofList (r.map fun x => if x = 1 then '1' else '0') := by
    intro r hr; apply String.toList_injective; rw [rowText_bits hr, String.toList_ofList]
  refine ⟨_, rfl, ?_, ?_, ?_⟩
  · rw [foldl_add_total]; simp [total]
  · intro r hr
    rw [foldl_add_count, ← ht r hr]
    simp only [countOf, List.filter_nil, List.map_nil, List.sum_nil, zero_add]
    induction rows with
    | nil => rfl
    | cons x rows ih =>
      rw [List.map_cons, List.count_cons, List.count_cons, ih fun r hr => hb r (by simp [hr])]
      congr 1
      by_cases hx : x = r
      · subst hx; simp
      · have : rowText x ≠ rowText r := fun h => hx (rowText_inj (hb x (by simp)) hr h)
        simp [hx, this]
  · intro s hs
    rw [foldl_add_count] at hs
    simp only [countOf, List.filter_nil, List.map_nil, List.sum_nil, zero_add] at hs
    obtain ⟨r, hr, rfl⟩ := List.mem_map.1 (List.count_pos_iff.1 hs)
    exact ⟨r, hr, ht r (hb r hr)⟩

/-- C76 is false of the code for the result of one shot, which is a list of bits: TypeError. -/
theorem C76_single_refuted (bits : List ℤ) (h : bits ≠ []) : wqCounter (.single bits) = .error .typeError := by
  cases bits with
  | nil => exact absurd rfl h
  | cons x l => rfl

/-- Numbers with several digits are not told apart. -/
theorem C76_digits : ∃ a b : List ℤ, a ≠ b ∧ wqCounter (.many [a, b]) = .ok [("111", 2)] :=
  ⟨[1, 11], [11, 1], by decide, by decide⟩

/-- The example of the documentation counts bit strings. -/
example : wqCounter (.many [[0, 1, 0], [1, 0, 0], [0, 1, 0]]) = .ok [("010", 2), ("100", 1)] := by decide

/-! ## C77 -/

/-- C77. `make_qs(n)` returns `q0, ..., q(n-1)` and `make_qs(n, m)` returns `qn, ..., q(m-1)`, provided that there are
any; the symbols are different. -/
theorem C77_make_qs_partial (n m : ℕ) :
    (0 < n → ∃ l, makeQs n none = .ok l ∧ l.length = n ∧ l.Nodup ∧ ∀ i < n, l[i]? = some ("q" ++ toString i)) ∧
    (n < m → ∃ l, makeQs n (some m) = .ok l ∧ l.length = m - n ∧ l.Nodup ∧
      ∀ i < m - n, l[i]? = some ("q" ++ toString (n + i))) := by
  have hinj : Function.Injective (fun i : ℕ => "q" ++ toString i) := by
    intro a b h
    simp only at h
    exact nat_toString_inj (by
      have := congrArg String.toList h
      rw [String.toList_append, String.toList_append] at this
      exact String.toList_injective (List.append_cancel_left this))
  constructor
  · intro h
    refine ⟨(List.range n).map (fun i => "q" ++ toString i), ?_, by simp, List.nodup_range.map hinj, ?_⟩
    · rw [makeQs, sympySymbols, if_neg]; simp; omega
    · intro i hi; simp [hi]
  · intro h
    refine ⟨(List.range' n (m - n)).map (fun i => "q" ++ toString i), ?_, by simp, (List.nodup_range' (s := n) (n := m - n) (step := 1) (by omega)).map hinj, ?_⟩
    · rw [makeQs, sympySymbols, if_neg]; simp; omega
    · intro i hi; simp [hi]

/-- C77 is false of the code: the last symbol that the documentation promises (`qn` of `make_qs(n)`, `qm` of
`make_qs(n, m)`) is missing, and where that leaves no symbols ValueError is raised. -/
theorem C77_last_refuted (n m : ℕ) :
    (∀ l, makeQs n none = .ok l → "q" ++ toString n ∉ l) ∧ (∀ l, makeQs n (some m) = .ok l → "q" ++ toString m ∉ l) ∧
    makeQs 0 none = .error .valueError ∧ makeQs n (some n) = .error .valueError := by
  have hinj : ∀ a b : ℕ, "q" ++ toString a = "q" ++ toString b → a = b := by
    intro a b h
    exact nat_toString_inj (by
      have := congrArg String.toList h
      rw [String.toList_append, String.toList_append] at this
      exact String.toList_injective (List.append_cancel_left this))
  refine ⟨?_, ?_, by decide, by simp [makeQs, sympySymbols]⟩
  · intro l h hm
    rw [makeQs, sympySymbols] at h
    split_ifs at h
    cases h
    obtain ⟨i, hi, he⟩ := List.mem_map.1 hm
    have := hinj _ _ he
    have := List.mem_range.1 hi
    omega
  · intro l h hm
    rw [makeQs, sympySymbols] at h
    split_ifs at h
    cases h
    obtain ⟨i, hi, he⟩ := List.mem_map.1 hm
    have := hinj _ _ he
    have := List.mem_range'_1.1 hi
    omega

example : makeQs 2 (some 4) = .ok ["q2", "q3"] := by decide

end Blueqat
