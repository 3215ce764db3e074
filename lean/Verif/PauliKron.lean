import Verif.PauliMatrix
import Verif.Spec.PauliMatrix
import Mathlib.Tactic.Linarith

/-!
# The divide-and-conquer Kronecker product
-/

set_option linter.unusedSimpArgs false
set_option linter.unusedVariables false

namespace Blueqat

open Spec

theorem kron1d_ok (a b : List ℂ) (h : b ≠ []) : kron1d a b = .ok (kron a b) := by
  have : b.length ≠ 0 := by simpa using h
  rw [kron1d, if_neg this, kron]
  congr 2
  funext x
  apply List.ext_getElem?
  intro i
  simp only [List.getElem?_zipWith, List.getElem?_map, List.getElem?_replicate]
  by_cases hi : i < b.length
  · simp [hi]
  · simp [hi]

theorem kron_one_right (a : List ℂ) : kron a [1] = a := by
  simp [kron, List.flatMap_singleton']

theorem kron_one_left (a : List ℂ) : kron [1] a = a := by simp [kron]

theorem kron_append (a b c : List ℂ) : kron (a ++ b) c = kron a c ++ kron b c := by simp [kron]

theorem kron_map (x : ℂ) (b c : List ℂ) : kron (b.map (fun y => x * y)) c = (kron b c).map (fun y => x * y) := by
  induction b with
  | nil => simp [kron]
  | cons y b ih =>
    rw [List.map_cons, show ∀ (z : ℂ) (l : List ℂ), kron (z :: l) c = c.map (fun y => z * y) ++ kron l c from
      fun z l => by simp [kron], ih, show kron (y :: b) c = c.map (fun z => y * z) ++ kron b c by simp [kron]]
    simp [mul_assoc]

theorem kron_assoc (a b c : List ℂ) : kron (kron a b) c = kron a (kron b c) := by
  induction a with
  | nil => simp [kron]
  | cons x a ih =>
    have h : ∀ (x : ℂ) (l m : List ℂ), kron (x :: l) m = m.map (fun y => x * y) ++ kron l m := by
      intro x l m; simp [kron]
    rw [h, h, kron_append, kron_map, ih]

theorem length_kron (a b : List ℂ) : (kron a b).length = a.length * b.length := by
  induction a with
  | nil => simp [kron]
  | cons x a ih =>
    rw [show kron (x :: a) b = b.map (fun y => x * y) ++ kron a b by simp [kron], List.length_append, ih]
    simp only [List.length_map, List.length_cons]; ring

/-- The product of a list of vectors, with the unit for the empty list. -/
noncomputable def red : List (List ℂ) → List ℂ
  | [] => [1]
  | v :: vs => kron v (red vs)

theorem red_append (l m : List (List ℂ)) : red (l ++ m) = kron (red l) (red m) := by
  induction l with
  | nil => rw [List.nil_append, red, kron_one_left]
  | cons v l ih => rw [List.cons_append, red, ih, red, kron_assoc]

theorem red_singleton (v : List ℂ) : red [v] = v := by rw [red, red, kron_one_right]

theorem kronAll_eq (v : List ℂ) (vs : List (List ℂ)) : kronAll v vs = red (v :: vs) := by
  rw [kronAll]
  induction vs generalizing v with
  | nil => rw [List.foldl_nil, red_singleton]
  | cons w vs ih => rw [List.foldl_cons, ih, red, red, red, kron_assoc]

theorem red_ne_nil (l : List (List ℂ)) (h : ∀ v ∈ l, v ≠ []) : red l ≠ [] := by
  induction l with
  | nil => simp [red]
  | cons v l ih =>
    have h1 := ih (fun w hw => h w (List.mem_cons_of_mem _ hw))
    have h2 := h v (by simp)
    rw [← List.length_pos_iff] at h1 h2 ⊢
    rw [red, length_kron]
    exact Nat.mul_pos h2 h1

/-! ## bisect -/

theorem bisectLeft_bounds (a : List ℕ) (x lo hi : ℕ) (h : lo ≤ hi) :
    lo ≤ bisectLeft a x lo hi ∧ bisectLeft a x lo hi ≤ hi := by
  induction hn : hi - lo using Nat.strong_induction_on generalizing lo hi with
  | _ n ih =>
    rw [bisectLeft]
    split_ifs with h1
    · simp only
      split_ifs with h2
      · have := ih (hi - ((lo + hi) / 2 + 1)) (by omega) ((lo + hi) / 2 + 1) hi (by omega) rfl
        omega
      · have := ih ((lo + hi) / 2 - lo) (by omega) lo ((lo + hi) / 2) (by omega) rfl
        omega
    · omega

theorem bisectLeft_lt (a : List ℕ) (x lo hi : ℕ) (h : lo < hi) (hx : x ≤ a.getD (hi - 1) 0) :
    bisectLeft a x lo hi < hi := by
  induction hn : hi - lo using Nat.strong_induction_on generalizing lo hi with
  | _ n ih =>
    rw [bisectLeft, dif_pos h]
    simp only
    split_ifs with h2
    · have hm : (lo + hi) / 2 + 1 < hi := by
        by_contra hc
        have : (lo + hi) / 2 = hi - 1 := by omega
        rw [this] at h2; omega
      exact ih (hi - ((lo + hi) / 2 + 1)) (by omega) _ _ hm hx rfl
    · have := (bisectLeft_bounds a x lo ((lo + hi) / 2) (by omega)).2
      omega

/-! ## The recursion -/

/-- `krons[lo:hi]`. -/
def sliceOf {α : Type} (l : List α) (lo hi : ℕ) : List α := (l.drop lo).take (hi - lo)

theorem sliceOf_append {α : Type} (l : List α) (lo mid hi : ℕ) (h1 : lo ≤ mid) (h2 : mid ≤ hi) :
    sliceOf l lo hi = sliceOf l lo mid ++ sliceOf l mid hi := by
  rw [sliceOf, sliceOf, sliceOf, show hi - lo = (mid - lo) + (hi - mid) by omega, List.take_add, List.drop_drop,
    show lo + (mid - lo) = mid by omega]

theorem sliceOf_one {α : Type} (l : List α) (lo : ℕ) (h : lo < l.length) : sliceOf l lo (lo + 1) = [l[lo]] := by
  rw [sliceOf, show lo + 1 - lo = 1 by omega, List.drop_eq_getElem_cons h]; rfl

theorem kron1dRec_ok (krons : List (List ℂ)) (cs : List ℕ) (hne : ∀ v ∈ krons, v ≠ [])
    (hlen : cs.length = krons.length) (hmono : ∀ i j, i ≤ j → j < cs.length → cs.getD i 0 ≤ cs.getD j 0) :
    ∀ fuel lo hi, lo < hi → hi ≤ krons.length → hi - lo ≤ fuel →
      kron1dRec krons cs fuel lo hi = .ok (red (sliceOf krons lo hi)) := by
  intro fuel
  induction fuel with
  | zero => intro lo hi h1 _ h3; omega
  | succ fuel ih =>
    intro lo hi h1 h2 h3
    have hsl : ∀ a b, red (sliceOf krons a b) ≠ [] := by
      intro a b
      apply red_ne_nil
      intro v hv
      exact hne v (List.mem_of_mem_drop (List.mem_of_mem_take hv))
    rw [kron1dRec]
    split_ifs with e1 e2
    · have : hi = lo + 1 := by omega
      subst this
      rw [List.getElem?_eq_getElem (by omega), sliceOf_one _ _ (by omega), red_singleton]
    · have : hi = lo + 1 + 1 := by omega
      subst this
      rw [List.getElem?_eq_getElem (by omega), List.getElem?_eq_getElem (by omega)]
      simp only
      rw [kron1d_ok _ _ (hne _ (List.getElem_mem _)), sliceOf_append _ lo (lo + 1) _ (by omega) (by omega),
        sliceOf_one _ _ (by omega), sliceOf_one _ _ (by omega), red_append, red_singleton, red_singleton]
    · have hlo : cs[lo]? = some (cs.getD lo 0) := by
        rw [List.getElem?_eq_getElem (by omega)]; simp [List.getD, List.getElem?_eq_getElem (show lo < cs.length by omega)]
      have hhi : cs[hi - 1]? = some (cs.getD (hi - 1) 0) := by
        rw [List.getElem?_eq_getElem (by omega)]
        simp [List.getD, List.getElem?_eq_getElem (show hi - 1 < cs.length by omega)]
      rw [hlo, hhi]
      simp only
      have hle : cs.getD lo 0 ≤ cs.getD (hi - 1) 0 := hmono _ _ (by omega) (by omega)
      have hb := (bisectLeft_bounds cs ((cs.getD lo 0 + cs.getD (hi - 1) 0) / 2) lo hi (by omega)).1
      have hl := bisectLeft_lt cs ((cs.getD lo 0 + cs.getD (hi - 1) 0) / 2) lo hi h1 (by omega)
      generalize bisectLeft cs ((cs.getD lo 0 + cs.getD (hi - 1) 0) / 2) lo hi = mid at hb hl
      split_ifs with e3
      · rw [List.getElem?_eq_getElem (by omega)]
        simp only
        rw [ih (lo + 1) hi (by omega) h2 (by omega)]
        simp only [bind, Except.bind]
        rw [kron1d_ok _ _ (hsl _ _), sliceOf_append _ lo (lo + 1) hi (by omega) (by omega),
          sliceOf_one _ _ (by omega), red_append, red_singleton]
      · rw [ih lo mid (by omega) (by omega) (by omega), ih mid hi (by omega) h2 (by omega)]
        simp only [bind, Except.bind]
        rw [kron1d_ok _ _ (hsl _ _), sliceOf_append _ lo mid hi (by omega) (by omega), red_append]

theorem length_cumsumFrom (l : List ℕ) (s : ℕ) : (cumsumFrom s l).length = l.length := by
  induction l generalizing s with
  | nil => rfl
  | cons k l ih => simp [cumsumFrom, ih]

theorem cumsumFrom_ge (l : List ℕ) (s j : ℕ) (h : j < l.length) : s ≤ (cumsumFrom s l).getD j 0 := by
  induction l generalizing s j with
  | nil => simp at h
  | cons k l ih =>
    cases j with
    | zero => simp [cumsumFrom]
    | succ j =>
      have := ih (s + k) j (by simpa using h)
      rw [cumsumFrom, List.getD_cons_succ]; omega

theorem cumsumFrom_mono (l : List ℕ) (s i j : ℕ) (hij : i ≤ j) (h : j < l.length) :
    (cumsumFrom s l).getD i 0 ≤ (cumsumFrom s l).getD j 0 := by
  induction l generalizing s i j with
  | nil => simp at h
  | cons k l ih =>
    cases i with
    | zero =>
      cases j with
      | zero => exact le_rfl
      | succ j =>
        have := cumsumFrom_ge l (s + k) j (by simpa using h)
        rw [cumsumFrom, List.getD_cons_succ, List.getD_cons_zero]; exact this
    | succ i =>
      cases j with
      | zero => omega
      | succ j =>
        rw [cumsumFrom, List.getD_cons_succ, List.getD_cons_succ]
        exact ih _ _ _ (by omega) (by simpa using h)

theorem kron1dRec_all (krons : List (List ℂ)) (hk : krons ≠ []) (hne : ∀ v ∈ krons, v ≠ []) (fuel : ℕ)
    (hf : krons.length ≤ fuel) :
    kron1dRec krons (cumsumFrom 0 (krons.map List.length)) fuel 0 krons.length = .ok (red krons) := by
  have hp : 0 < krons.length := List.length_pos_iff.2 hk
  have hl : (cumsumFrom 0 (krons.map List.length)).length = krons.length := by simp [length_cumsumFrom]
  rw [kron1dRec_ok krons _ hne hl (fun i j hij hj => cumsumFrom_mono _ _ _ _ hij
    (by simpa [length_cumsumFrom] using hj)) fuel 0 krons.length hp le_rfl (by omega)]
  simp [sliceOf]

end Blueqat
