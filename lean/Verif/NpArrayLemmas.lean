import Verif.NpArray
import Verif.QuantumLemmas

/-! Lemmas: masked array operations on arrays given by amplitude functions. -/

namespace Blueqat

open Spec

/-- The array of an `n`-qubit amplitude function. -/
def vec (n : ℕ) (ψ : Vec) : Arr := (List.range (2 ^ n)).map ψ

/-- The mask of a predicate on indices. -/
def maskOf (n : ℕ) (p : ℕ → Bool) : List Bool := (List.range (2 ^ n)).map p

@[simp] theorem length_vec (n : ℕ) (ψ : Vec) : (vec n ψ).length = 2 ^ n := by simp [vec]

theorem vec_congr {n : ℕ} {ψ χ : Vec} (h : ∀ i < 2 ^ n, ψ i = χ i) : vec n ψ = vec n χ := by
  simp only [vec]; exact List.map_congr_left (fun i hi => h i (List.mem_range.1 hi))

theorem vec_inj {n : ℕ} {ψ χ : Vec} (h : vec n ψ = vec n χ) : ∀ i < 2 ^ n, ψ i = χ i := by
  intro i hi
  have := List.map_eq_map_iff.1 h i (List.mem_range.2 hi)
  exact this

theorem vec_getD (n : ℕ) (q : Arr) (h : q.length = 2 ^ n) : q = vec n (fun i => q.getD i 0) := by
  apply List.ext_getElem
  · simp [h]
  · intro i h1 h2
    simp [vec, List.getD_eq_getElem?_getD, List.getElem?_eq_getElem h1]

theorem and_two_pow_ne (i t : ℕ) : ((i &&& 2 ^ t) != 0) = i.testBit t := by
  rw [Nat.testBit_eq_decide_div_mod_eq]
  have := Nat.and_two_pow i t
  rw [this]
  cases h : i.testBit t <;> rw [Nat.testBit_eq_decide_div_mod_eq] at h <;> simp_all

theorem and_two_pow_eq (i t : ℕ) : ((i &&& 2 ^ t) == 0) = !i.testBit t := by
  rw [← and_two_pow_ne]; simp [bne]

theorem maskNe_eq (n t : ℕ) : maskNe n (2 ^ t) = maskOf n (fun i => i.testBit t) := by
  simp only [maskNe, maskOf, and_two_pow_ne]

theorem maskEq_eq (n t : ℕ) : maskEq n (2 ^ t) = maskOf n (fun i => !i.testBit t) := by
  simp only [maskEq, maskOf, and_two_pow_eq]

theorem maskAnd_eq (n : ℕ) (p r : ℕ → Bool) :
    maskAnd (maskOf n p) (maskOf n r) = maskOf n (fun i => p i && r i) := by
  simp only [maskAnd, maskOf, List.zipWith_map, List.zipWith_self]

theorem sel_map (l : List ℕ) (ψ : Vec) (p : ℕ → Bool) :
    sel (l.map ψ) (l.map p) = (l.filter p).map ψ := by
  induction l with
  | nil => rfl
  | cons x l ih => by_cases h : p x <;> simp [sel, h, ih]

theorem sel_vec (n : ℕ) (ψ : Vec) (p : ℕ → Bool) :
    sel (vec n ψ) (maskOf n p) = ((List.range (2 ^ n)).filter p).map ψ := sel_map _ _ _

theorem fill_map (l : List ℕ) (ψ χ : Vec) (p : ℕ → Bool) :
    fill (l.map ψ) (l.map p) ((l.filter p).map χ) = l.map (fun i => if p i then χ i else ψ i) := by
  induction l with
  | nil => rfl
  | cons x l ih => by_cases h : p x <;> simp [fill, h, ih]

theorem count_maskOf (l : List ℕ) (p : ℕ → Bool) :
    ((l.map p).filter id).length = (l.filter p).length := by
  induction l with
  | nil => rfl
  | cons x l ih => by_cases h : p x <;> simp [h, ih]

theorem asg_vec (n : ℕ) (ψ χ : Vec) (p : ℕ → Bool) :
    asg (vec n ψ) (maskOf n p) (((List.range (2 ^ n)).filter p).map χ) =
      .ok (vec n (fun i => if p i then χ i else ψ i)) := by
  simp only [asg, maskOf, count_maskOf, List.length_map, if_true, vec, fill_map]

theorem mulAt_vec (n : ℕ) (ψ : Vec) (p : ℕ → Bool) (z : ℂ) :
    mulAt (vec n ψ) (maskOf n p) z = vec n (fun i => if p i then ψ i * z else ψ i) := by
  simp only [mulAt, vec, maskOf, List.zipWith_map, List.zipWith_self]

theorem setAt_vec (n : ℕ) (ψ : Vec) (p : ℕ → Bool) (z : ℂ) :
    setAt (vec n ψ) (maskOf n p) z = vec n (fun i => if p i then z else ψ i) := by
  simp only [setAt, vec, maskOf, List.zipWith_map, List.zipWith_self]

theorem addA_map (l : List ℕ) (ψ χ : Vec) :
    addA (l.map ψ) (l.map χ) = .ok (l.map fun i => ψ i + χ i) := by
  simp [addA, broadcast2, List.zipWith_map, List.zipWith_self]

theorem subA_map (l : List ℕ) (ψ χ : Vec) :
    subA (l.map ψ) (l.map χ) = .ok (l.map fun i => ψ i - χ i) := by
  simp [subA, broadcast2, List.zipWith_map, List.zipWith_self]

theorem smulA_map (z : ℂ) (l : List ℕ) (ψ : Vec) : smulA z (l.map ψ) = l.map fun i => z * ψ i := by
  simp [smulA, Function.comp_def]

theorem mulS_map (z : ℂ) (l : List ℕ) (ψ : Vec) : mulS (l.map ψ) z = l.map fun i => ψ i * z := by
  simp [mulS, Function.comp_def]

theorem divS_map (z : ℂ) (l : List ℕ) (ψ : Vec) : divS (l.map ψ) z = l.map fun i => ψ i / z := by
  simp [divS, Function.comp_def]

theorem divS_vec (n : ℕ) (z : ℂ) (ψ : Vec) : divS (vec n ψ) z = vec n fun i => ψ i / z := divS_map z _ ψ
theorem mulS_vec (n : ℕ) (z : ℂ) (ψ : Vec) : mulS (vec n ψ) z = vec n fun i => ψ i * z := mulS_map z _ ψ

theorem flipBit_of_testBit_false {t i : ℕ} (h : i.testBit t = false) : flipBit t i = i + 2 ^ t := by
  have hlt : i % 2 ^ (t + 1) < 2 ^ t := by
    rw [Nat.testBit_eq_decide_div_mod_eq] at h
    have h' : i / 2 ^ t % 2 = 0 := by
      have := Nat.mod_two_eq_zero_or_one (i / 2 ^ t); simp at h; omega
    rw [pow_succ, Nat.mod_mul, h']
    simpa using Nat.mod_lt i (Nat.two_pow_pos t)
  have hdecomp : i = 2 ^ (t + 1) * (i / 2 ^ (t + 1)) + i % 2 ^ (t + 1) := (Nat.div_add_mod _ _).symm
  have hsum : i + 2 ^ t = 2 ^ (t + 1) * (i / 2 ^ (t + 1)) + (2 ^ t + i % 2 ^ (t + 1)) := by omega
  have hlt2 : 2 ^ t + i % 2 ^ (t + 1) < 2 ^ (t + 1) := by rw [pow_succ] at *; omega
  apply Nat.eq_of_testBit_eq
  intro j
  rw [hsum, Nat.testBit_two_pow_mul_add _ hlt2, testBit_flipBit]
  conv_lhs => rw [hdecomp, Nat.testBit_two_pow_mul_add _ (Nat.mod_lt _ (Nat.two_pow_pos _))]
  by_cases hj : j < t + 1
  · simp only [hj, if_true]
    by_cases hjt : t = j
    · subst hjt; rw [Nat.testBit_two_pow_add_eq]; simp
    · rw [Nat.testBit_two_pow_add_gt (by omega)]; simp [hjt]
  · have : t ≠ j := by omega
    simp [hj, this]

theorem filter_flip (n t : ℕ) (ht : t < n) (c : ℕ → Bool) (hc : ∀ i, c (flipBit t i) = c i) :
    (List.range (2 ^ n)).filter (fun i => c i && i.testBit t) =
      ((List.range (2 ^ n)).filter (fun i => c i && !i.testBit t)).map (flipBit t) := by
  have s1 : ((List.range (2 ^ n)).filter (fun i => c i && i.testBit t)).Pairwise (· < ·) :=
    List.Pairwise.filter _ List.pairwise_lt_range
  have s2 : (((List.range (2 ^ n)).filter (fun i => c i && !i.testBit t)).map (flipBit t)).Pairwise (· < ·) := by
    rw [List.pairwise_map]
    refine List.Pairwise.imp_of_mem ?_ (List.Pairwise.filter _ List.pairwise_lt_range)
    intro a b ha hb hab
    rw [List.mem_filter] at ha hb
    have ha' : a.testBit t = false := by have := ha.2; simp at this; exact this.2
    have hb' : b.testBit t = false := by have := hb.2; simp at this; exact this.2
    rw [flipBit_of_testBit_false ha', flipBit_of_testBit_false hb']; omega
  have n1 := s1.imp (fun h => ne_of_lt h)
  have n2 := s2.imp (fun h => ne_of_lt h)
  refine List.Perm.eq_of_pairwise (fun a b _ _ h1 h2 => absurd h1 (by omega)) s1 s2
    ((List.perm_ext_iff_of_nodup n1 n2).2 ?_)
  intro i
  simp only [List.mem_filter, List.mem_map, List.mem_range, Bool.and_eq_true, Bool.not_eq_true']
  constructor
  · rintro ⟨h1, h2, h3⟩
    exact ⟨flipBit t i, ⟨flipBit_lt ht h1, by rw [hc]; exact h2, by simp [h3]⟩, by simp⟩
  · rintro ⟨j, ⟨h1, h2, h3⟩, rfl⟩
    exact ⟨flipBit_lt ht h1, by rw [hc]; exact h2, by simp [h3]⟩

theorem filter_flip' (n t : ℕ) (ht : t < n) (c : ℕ → Bool) (hc : ∀ i, c (flipBit t i) = c i) :
    (List.range (2 ^ n)).filter (fun i => c i && !i.testBit t) =
      ((List.range (2 ^ n)).filter (fun i => c i && i.testBit t)).map (flipBit t) := by
  rw [filter_flip n t ht c hc, List.map_map]
  have : flipBit t ∘ flipBit t = id := by funext i; simp
  rw [this, List.map_id]

theorem sel_one_flip (n t : ℕ) (ht : t < n) (c : ℕ → Bool) (hc : ∀ i, c (flipBit t i) = c i) (ψ : Vec) :
    sel (vec n ψ) (maskOf n fun i => c i && i.testBit t) =
      ((List.range (2 ^ n)).filter (fun i => c i && !i.testBit t)).map (fun i => ψ (flipBit t i)) := by
  rw [sel_vec, filter_flip n t ht c hc, List.map_map]; rfl

theorem sel_zero_flip (n t : ℕ) (ht : t < n) (c : ℕ → Bool) (hc : ∀ i, c (flipBit t i) = c i) (ψ : Vec) :
    sel (vec n ψ) (maskOf n fun i => c i && !i.testBit t) =
      ((List.range (2 ^ n)).filter (fun i => c i && i.testBit t)).map (fun i => ψ (flipBit t i)) := by
  rw [sel_vec, filter_flip' n t ht c hc, List.map_map]; rfl

end Blueqat
