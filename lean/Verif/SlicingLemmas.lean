import Verif.Slicing
import Verif.Spec.Slice

/-! Helper lemmas about the slicing loops. -/

namespace Blueqat

theorem mem_loopUp (i stop k : Int) (hk : 0 < k) (q : Int) :
    q ∈ loopUp i stop k ↔ i ≤ q ∧ q < stop ∧ k ∣ q - i := by
  fun_induction loopUp i stop k with
  | case1 i h ih =>
    rw [List.mem_cons, ih]
    constructor
    · rintro (rfl | ⟨h1, h2, h3⟩)
      · exact ⟨le_refl _, h.2, by simp⟩
      · refine ⟨by omega, h2, ?_⟩
        have : q - i = (q - (i + k)) + k := by ring
        rw [this]; exact dvd_add h3 (dvd_refl k)
    · rintro ⟨h1, h2, h3⟩
      by_cases hq : q = i
      · exact Or.inl hq
      · right
        have h4 : k ≤ q - i := Int.le_of_dvd (by omega) h3
        refine ⟨by omega, h2, ?_⟩
        have : q - (i + k) = (q - i) - k := by ring
        rw [this]; exact dvd_sub h3 (dvd_refl k)
  | case2 i h =>
    simp only [List.not_mem_nil, false_iff]
    rintro ⟨h1, h2, _⟩
    exact h ⟨hk, by omega⟩

theorem pairwise_loopUp (i stop k : Int) : (loopUp i stop k).Pairwise (· < ·) := by
  fun_induction loopUp i stop k with
  | case1 i h ih =>
    refine List.Pairwise.cons ?_ ih
    intro q hq
    have := (mem_loopUp (i + k) stop k h.1 q).1 hq
    omega
  | case2 => exact List.Pairwise.nil

theorem mem_loopDown (i stop k : Int) (hk : k < 0) (q : Int) :
    q ∈ loopDown i stop k ↔ q ≤ i ∧ stop < q ∧ k ∣ q - i := by
  fun_induction loopDown i stop k with
  | case1 i h ih =>
    rw [List.mem_cons, ih]
    constructor
    · rintro (rfl | ⟨h1, h2, h3⟩)
      · exact ⟨le_refl _, h.2, by simp⟩
      · refine ⟨by omega, h2, ?_⟩
        have : q - i = (q - (i + k)) + k := by ring
        rw [this]; exact dvd_add h3 (dvd_refl k)
    · rintro ⟨h1, h2, h3⟩
      by_cases hq : q = i
      · exact Or.inl hq
      · right
        have h3' : -k ∣ i - q := by
          have := (neg_dvd (a := k) (b := i - q)).2 (by
            have h := dvd_neg.2 h3
            have e : -(q - i) = i - q := by ring
            rwa [e] at h)
          exact this
        have h4 : -k ≤ i - q := Int.le_of_dvd (by omega) h3'
        refine ⟨by omega, h2, ?_⟩
        have : q - (i + k) = (q - i) - k := by ring
        rw [this]; exact dvd_sub h3 (dvd_refl k)
  | case2 i h =>
    simp only [List.not_mem_nil, false_iff]
    rintro ⟨h1, h2, _⟩
    exact h ⟨hk, by omega⟩

theorem pairwise_loopDown (i stop k : Int) : (loopDown i stop k).Pairwise (· > ·) := by
  fun_induction loopDown i stop k with
  | case1 i h ih =>
    refine List.Pairwise.cons ?_ ih
    intro q hq
    have := (mem_loopDown (i + k) stop k h.1 q).1 hq
    show i > q
    omega
  | case2 => exact List.Pairwise.nil

theorem Gen.forEach_ok {α β : Type} (f : α → Gen β) (g : α → List β) (xs : List α)
    (h : ∀ x ∈ xs, f x = ⟨g x, none⟩) : Gen.forEach f xs = ⟨xs.flatMap g, none⟩ := by
  induction xs with
  | nil => rfl
  | cons x xs ih =>
    simp only [Gen.forEach]
    rw [h x (by simp), ih (fun y hy => h y (by simp [hy]))]
    simp [Gen.append]

theorem Gen.forEach_fail {α β : Type} (f : α → Gen β) (g : α → List β) (xs : List α) (y : α)
    (ys : List α) (vs : List β) (e : PyErr)
    (h : ∀ x ∈ xs, f x = ⟨g x, none⟩) (hy : f y = ⟨vs, some e⟩) :
    Gen.forEach f (xs ++ y :: ys) = ⟨xs.flatMap g ++ vs, some e⟩ := by
  induction xs with
  | nil => simp [Gen.forEach, hy, Gen.append]
  | cons x xs ih =>
    simp only [Gen.forEach, List.cons_append]
    rw [h x (by simp), ih (fun y hy => h y (by simp [hy]))]
    simp [Gen.append]

end Blueqat
