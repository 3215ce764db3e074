import Verif.Spec.Append
import Verif.Circuit

/-! Lemmas about `getMaximumIndex` and `newQubits`. -/

set_option linter.unusedSimpArgs false
set_option linter.unusedVariables false

namespace Blueqat

open Spec

theorem maximumIdxSingle_ok {x : Item} {v : ℤ} (h : maximumIdxSingle x = .ok v) :
    ∃ a, x = .atom a ∧ a ≠ .bad ∧ (∀ u ∈ atomMentions a, u ≤ v) ∧ (v ∈ atomMentions a ∨ v = -1) := by
  match x, h with
  | .atom (.int i), h =>
    simp only [maximumIdxSingle, Except.ok.injEq] at h
    subst h
    exact ⟨_, rfl, by simp, by simp [atomMentions], by simp [atomMentions]⟩
  | .atom (.slice a b c), h =>
    simp only [maximumIdxSingle, Except.ok.injEq] at h
    subst h
    refine ⟨_, rfl, by simp, ?_, ?_⟩
    · intro u hu
      cases a <;> cases b <;> simp [atomMentions] at hu ⊢ <;> omega
    · cases a <;> cases b <;> simp [atomMentions] <;> omega
  | .atom .bad, h => simp [maximumIdxSingle] at h
  | .tup _, h => simp [maximumIdxSingle] at h

theorem maximumIdxSingle_plain {a : Atom} (h : a ≠ .bad) : ∃ v, maximumIdxSingle (.atom a) = .ok v := by
  cases a with
  | bad => exact absurd rfl h
  | _ => exact ⟨_, rfl⟩

theorem maxOver_ok (xs : List Item) : ∀ (acc : Option ℤ) (v : ℤ), maxOver xs acc = .ok v →
    (∀ x ∈ xs, ∃ a, x = .atom a ∧ a ≠ .bad) ∧ (∀ u ∈ mentions (.tup xs), u ≤ v) ∧ (∀ u ∈ acc, u ≤ v) ∧
      (v ∈ mentions (.tup xs) ∨ v ∈ acc ∨ v = -1) := by
  induction xs with
  | nil =>
    intro acc v h
    simp only [maxOver, Except.ok.injEq] at h
    subst h
    cases acc <;> simp [mentions, atomsOf]
  | cons x xs ih =>
    intro acc v h
    simp only [maxOver] at h
    cases hx : maximumIdxSingle x with
    | error e => rw [hx] at h; cases h
    | ok w =>
      simp only [hx] at h
      obtain ⟨h1, h2, h3, h4⟩ := ih _ v h
      obtain ⟨a, rfl, hb, ha1, ha2⟩ := maximumIdxSingle_ok hx
      have hm : mentions (.tup (.atom a :: xs)) = atomMentions a ++ mentions (.tup xs) := by
        simp [mentions, atomsOf]
      have hacc : w ≤ v ∧ ∀ u ∈ acc, u ≤ v := by
        cases acc with
        | none => simpa using h3
        | some u => have := h3 _ rfl; simp at this ⊢; exact ⟨this.2, this.1⟩
      refine ⟨?_, ?_, hacc.2, ?_⟩
      · intro y hy
        simp only [List.mem_cons] at hy
        rcases hy with rfl | hy
        · exact ⟨a, rfl, hb⟩
        · exact h1 y hy
      · rw [hm]; intro u hu
        rcases List.mem_append.1 hu with hu | hu
        · exact (ha1 u hu).trans hacc.1
        · exact h2 u hu
      · rw [hm]
        rcases h4 with h4 | h4 | h4
        · exact .inl (List.mem_append.2 (.inr h4))
        · have hv : v = w ∨ some v = acc := by
            cases acc with
            | none => simp at h4; exact .inl h4.symm
            | some u =>
              simp at h4
              rcases le_total u w with h | h
              · left; omega
              · right; simp; omega
          rcases hv with rfl | hv
          · rcases ha2 with ha2 | ha2
            · exact .inl (List.mem_append.2 (.inl ha2))
            · exact .inr (.inr ha2)
          · exact .inr (.inl hv.symm)
        · exact .inr (.inr h4)

theorem maxOver_plain (xs : List Item) : ∀ acc, (∀ x ∈ xs, ∃ a, x = .atom a ∧ a ≠ .bad) →
    ∃ v, maxOver xs acc = .ok v := by
  induction xs with
  | nil => intro acc _; exact ⟨_, rfl⟩
  | cons x xs ih =>
    intro acc h
    obtain ⟨a, rfl, hb⟩ := h x (by simp)
    obtain ⟨w, hw⟩ := maximumIdxSingle_plain hb
    simp only [maxOver, hw]
    exact ih _ (fun y hy => h y (by simp [hy]))

theorem maxOver_error (xs : List Item) : ∀ acc e, maxOver xs acc = .error e → e = .attributeError := by
  induction xs with
  | nil => intro acc e h; cases h
  | cons x xs ih =>
    intro acc e h
    simp only [maxOver] at h
    cases hx : maximumIdxSingle x with
    | error e' =>
      rw [hx] at h; cases h
      match x, hx with
      | .atom .bad, hx => cases hx; rfl
      | .tup _, hx => cases hx; rfl
    | ok w => rw [hx] at h; exact ih _ e h

theorem getMaximumIndex_ok {T : Targets} {v : ℤ} (h : getMaximumIndex T = .ok v) :
    Plain T ∧ (∀ u ∈ mentions T, u ≤ v) ∧ (v ∈ mentions T ∨ v = -1) := by
  cases T with
  | one a =>
    obtain ⟨b, hab, hb, h1, h2⟩ := maximumIdxSingle_ok h
    cases hab
    refine ⟨hb, ?_, ?_⟩ <;> simpa [mentions, atomsOf]
  | tup xs =>
    obtain ⟨h1, h2, -, h4⟩ := maxOver_ok xs none v h
    exact ⟨h1, h2, by simpa using h4⟩

theorem getMaximumIndex_plain {T : Targets} (h : Plain T) : ∃ v, getMaximumIndex T = .ok v := by
  cases T with
  | one a => exact maximumIdxSingle_plain h
  | tup xs => exact maxOver_plain xs none h

theorem getMaximumIndex_error {T : Targets} {e : PyErr} (h : getMaximumIndex T = .error e) :
    e = .attributeError := by
  cases T with
  | one a =>
    cases a with
    | bad => cases h; rfl
    | _ => cases h
  | tup xs => exact maxOver_error xs none e h

theorem newQubits_grown {T : Targets} {v : ℤ} (h : getMaximumIndex T = .ok v) (n : ℕ) :
    GrownTo n T (newQubits v n) := by
  obtain ⟨-, h1, h2⟩ := getMaximumIndex_ok h
  have hc : ((newQubits v n : ℕ) : ℤ) = max (v + 1) n := by simp only [newQubits]; omega
  refine ⟨⟨by simp only [newQubits]; omega, fun u hu => ?_⟩, ?_⟩
  · rw [hc]; have := h1 u hu; omega
  · rintro m ⟨hm1, hm2⟩
    rcases h2 with h2 | h2
    · have := hm2 v h2; omega
    · omega

end Blueqat
