import Verif.Props.Slicing
import Verif.Spec.Targets

/-! The slicing functions compute exactly what subscripts denote. -/

namespace Blueqat

open Spec

theorem enumerates_unique {k : Option Int} {P : Int → Prop} {L M : List Int}
    (h1 : Enumerates k P L) (h2 : Enumerates k P M) : L = M := by
  have hmem : ∀ q, q ∈ L ↔ q ∈ M := fun q => (h1.1 q).trans (h2.1 q).symm
  have hs1 := h1.2
  have hs2 := h2.2
  split_ifs at hs1 hs2 with h
  · have n1 : L.Nodup := hs1.imp (fun h => ne_of_lt h)
    have n2 : M.Nodup := hs2.imp (fun h => ne_of_lt h)
    have hp : L.Perm M := (List.perm_ext_iff_of_nodup n1 n2).2 hmem
    exact List.Perm.eq_of_pairwise (fun a b _ _ h1 h2 => absurd h1 (by omega)) hs1 hs2 hp
  · have n1 : L.Nodup := hs1.imp (fun h => ne_of_gt h)
    have n2 : M.Nodup := hs2.imp (fun h => ne_of_gt h)
    have hp : L.Perm M := (List.perm_ext_iff_of_nodup n1 n2).2 hmem
    exact List.Perm.eq_of_pairwise (fun a b _ _ h1 h2 => absurd h1 (by omega)) hs1 hs2 hp

theorem slicingSinglevalue_eq_iff (n : Nat) (a : Atom) (L : List Int) :
    slicingSinglevalue a n = ⟨L, none⟩ ↔ AtomDenotes n a L := by
  cases a with
  | int i =>
    have := (C01_int n i).1
    simp only [slicing] at this
    rw [this]; simp [AtomDenotes, eq_comm]
  | bad => simp [slicingSinglevalue, AtomDenotes]
  | slice s e k =>
    by_cases hk : k = some 0
    · subst hk
      have := C01_slice_step_zero n s e
      simp only [slicing] at this
      rw [this]; simp [AtomDenotes]
    · obtain ⟨M, hM, hE⟩ := C01_slice n s e k hk
      simp only [slicing] at hM
      rw [hM]
      simp only [AtomDenotes, Gen.mk.injEq, and_true]
      constructor
      · rintro rfl; exact ⟨hk, hE⟩
      · rintro ⟨_, h⟩; exact enumerates_unique hE h

theorem gen_append_eq_iff {α : Type} (a b : Gen α) (L : List α) :
    a.append b = ⟨L, none⟩ ↔ ∃ L₁ L₂, a = ⟨L₁, none⟩ ∧ b = ⟨L₂, none⟩ ∧ L = L₁ ++ L₂ := by
  rcases a with ⟨av, _ | ae⟩ <;> rcases b with ⟨bv, _ | be⟩ <;> simp [Gen.append, eq_comm]

theorem forEach_eq_iff (n : Nat) (as : List Atom) (L : List Int) :
    Gen.forEach (fun a => slicingSinglevalue a (n:Int)) as = ⟨L, none⟩ ↔ AtomsDenote n as L := by
  induction as generalizing L with
  | nil => simp [Gen.forEach, AtomsDenote, eq_comm]
  | cons a as ih =>
    simp only [Gen.forEach, AtomsDenote, gen_append_eq_iff, ih, slicingSinglevalue_eq_iff]

theorem slicingItem_eq_iff (n : Nat) (x : Item) (L : List Int) :
    slicingItem x n = ⟨L, none⟩ ↔ ItemDenotes n x L := by
  cases x with
  | atom a => exact slicingSinglevalue_eq_iff n a L
  | tup as => exact forEach_eq_iff n as L

theorem slicing_eq_iff (n : Nat) (T : Targets) (L : List Int) :
    slicing T n = ⟨L, none⟩ ↔ TargetsDenote n T L := by
  cases T with
  | one a => exact slicingSinglevalue_eq_iff n a L
  | tup xs =>
    simp only [slicing, TargetsDenote]
    induction xs generalizing L with
    | nil =>
      constructor
      · intro h; exact ⟨[], rfl, by simpa [AtomsDenote, Gen.forEach, eq_comm] using h⟩
      · rintro ⟨as, h, hL⟩
        cases as with
        | nil => simp [AtomsDenote] at hL; simp [Gen.forEach, hL]
        | cons => simp at h
    | cons x xs ih =>
      simp only [Gen.forEach, gen_append_eq_iff, ih]
      constructor
      · rintro ⟨L₁, L₂, h1, ⟨as, rfl, h2⟩, rfl⟩
        cases x with
        | tup => simp [slicingItemAsSingle] at h1
        | atom a =>
          exact ⟨a :: as, rfl, L₁, L₂, (slicingSinglevalue_eq_iff n a L₁).1 h1, h2, rfl⟩
      · rintro ⟨as, h, hL⟩
        cases as with
        | nil => simp at h
        | cons a as =>
          simp only [List.map_cons, List.cons.injEq] at h
          obtain ⟨rfl, rfl⟩ := h
          obtain ⟨L₁, L₂, h1, h2, rfl⟩ := hL
          exact ⟨L₁, L₂, (slicingSinglevalue_eq_iff n a L₁).2 h1, ⟨as, rfl, h2⟩, rfl⟩

theorem toList_eq_ok_iff {α : Type} (g : Gen α) (L : List α) :
    g.toList = .ok L ↔ g = ⟨L, none⟩ := by
  rcases g with ⟨v, _ | e⟩ <;> simp [Gen.toList]

end Blueqat
