import Verif.Spec.SymPoly
import Mathlib.Algebra.MvPolynomial.CommRing
import Mathlib.Algebra.MvPolynomial.Funext
import Mathlib.Tactic.Linarith
import Mathlib.Tactic.Ring

/-!
# Lemmas about polynomials whose monomials are replaced
-/

set_option linter.unusedSimpArgs false
set_option linter.unusedVariables false

namespace Blueqat

noncomputable section

open Classical MvPolynomial
open Spec

/-! ## Replacing monomials -/

/-- Every monomial replaced by another one. -/
def mapMono (g : (ℕ →₀ ℕ) → (ℕ →₀ ℕ)) : SymPoly →ₗ[ℝ] SymPoly where
  toFun f := ∑ m ∈ f.support, monomial (g m) (f.coeff m)
  map_add' p q := by
    have h : ∀ (f : SymPoly) (S : Finset (ℕ →₀ ℕ)), f.support ⊆ S →
        ∑ m ∈ f.support, monomial (g m) (f.coeff m) = ∑ m ∈ S, monomial (g m) (f.coeff m) := by
      intro f S hS
      apply Finset.sum_subset hS
      intro m _ hm
      rw [notMem_support_iff.1 hm, map_zero]
    rw [h p (p.support ∪ q.support) Finset.subset_union_left, h q (p.support ∪ q.support) Finset.subset_union_right,
      h (p + q) (p.support ∪ q.support) support_add, ← Finset.sum_add_distrib]
    apply Finset.sum_congr rfl
    intro m _; rw [coeff_add, map_add]
  map_smul' c p := by
    simp only [RingHom.id_apply]
    rw [Finset.smul_sum]
    by_cases hc : c = 0
    · simp [hc]
    · have : (c • p).support = p.support := by
        ext m; simp [mem_support_iff, coeff_smul, hc]
      rw [this]
      apply Finset.sum_congr rfl
      intro m _; rw [coeff_smul, smul_monomial]

theorem mapMono_apply (g : (ℕ →₀ ℕ) → (ℕ →₀ ℕ)) (f : SymPoly) :
    mapMono g f = ∑ m ∈ f.support, monomial (g m) (f.coeff m) := rfl

theorem mapMono_monomial (g : (ℕ →₀ ℕ) → (ℕ →₀ ℕ)) (m : ℕ →₀ ℕ) (c : ℝ) :
    mapMono g (monomial m c) = monomial (g m) c := by
  rw [mapMono_apply]
  by_cases hc : c = 0
  · simp [hc]
  · rw [support_monomial, if_neg hc]; simp

theorem mapMono_comp (g h : (ℕ →₀ ℕ) → (ℕ →₀ ℕ)) (f : SymPoly) : mapMono g (mapMono h f) = mapMono (fun m => g (h m)) f := by
  rw [mapMono_apply h, map_sum, mapMono_apply]
  apply Finset.sum_congr rfl
  intro m _; rw [mapMono_monomial]

theorem mapMono_congr {g h : (ℕ →₀ ℕ) → (ℕ →₀ ℕ)} {f : SymPoly} (hgh : ∀ m ∈ f.support, g m = h m) :
    mapMono g f = mapMono h f := by
  rw [mapMono_apply, mapMono_apply]
  apply Finset.sum_congr rfl
  intro m hm; rw [hgh m hm]

theorem mapMono_self {g : (ℕ →₀ ℕ) → (ℕ →₀ ℕ)} {f : SymPoly} (h : ∀ m ∈ f.support, g m = m) : mapMono g f = f := by
  rw [mapMono_congr (h := fun m => m) h, mapMono_apply]
  exact f.support_sum_monomial_coeff

theorem mapMono_support {g : (ℕ →₀ ℕ) → (ℕ →₀ ℕ)} {f : SymPoly} {m : ℕ →₀ ℕ} (h : m ∈ (mapMono g f).support) :
    ∃ m' ∈ f.support, g m' = m := by
  rw [mapMono_apply] at h
  by_contra hc
  push Not at hc
  rw [mem_support_iff, coeff_sum] at h
  apply h
  apply Finset.sum_eq_zero
  intro m' hm'
  rw [coeff_monomial, if_neg (hc m' hm')]

theorem subsPow_eq (f : SymPoly) (j k : ℕ) :
    subsPow f j k = mapMono (fun m => m.update j (powSubs k (m j))) f := rfl

/-! ## The loops of `expand_qubo` -/

theorem powSubs_zero (k : ℕ) : powSubs k 0 = 0 := by simp [powSubs]

/-- All exponents reduced by `powSubs`. -/
def powAll (k : ℕ) (m : ℕ →₀ ℕ) : ℕ →₀ ℕ := m.mapRange (powSubs k) (powSubs_zero k)

theorem subs_fold (k : ℕ) (L : List ℕ) (f : SymPoly) :
    L.foldl (fun f j => subsPow f j k) f = mapMono (fun m => L.foldl (fun m j => m.update j (powSubs k (m j))) m) f := by
  induction L generalizing f with
  | nil => exact (mapMono_self fun m _ => rfl).symm
  | cons j L ih =>
    rw [List.foldl_cons, ih, subsPow_eq, mapMono_comp]
    rfl

theorem update_fold (k : ℕ) (L : List ℕ) (hL : L.Nodup) (m : ℕ →₀ ℕ) (i : ℕ) :
    (L.foldl (fun m j => m.update j (powSubs k (m j))) m) i = if i ∈ L then powSubs k (m i) else m i := by
  induction L generalizing m with
  | nil => simp
  | cons j L ih =>
    rw [List.nodup_cons] at hL
    rw [List.foldl_cons, ih hL.2]
    by_cases hij : i = j
    · subst hij; simp [hL.1]
    · simp [hij, Finsupp.update_apply]

theorem subs_all {ord : Finset ℕ → List ℕ} (ho : ListsSets ord) (k : ℕ) (f : SymPoly) :
    (ord f.vars).foldl (fun f j => subsPow f j k) f = mapMono (powAll k) f := by
  rw [subs_fold]
  apply mapMono_congr
  intro m hm
  ext i
  rw [update_fold _ _ (ho _).1, powAll, Finsupp.mapRange_apply]
  by_cases h : i ∈ ord f.vars
  · rw [if_pos h]
  · have : m i = 0 := by
      by_contra h0
      exact h (((ho _).2 i).2 ((mem_vars i).2 ⟨m, hm, Finsupp.mem_support_iff.2 h0⟩))
    rw [if_neg h, this, powSubs_zero]

/-- The exponents after the loop with the powers `d, d - 1, ..., d - n + 1`. -/
def powLoop (d : ℕ) : ℕ → ℕ → ℕ
  | 0, e => e
  | n + 1, e => powSubs (d - n) (powLoop d n e)

theorem powLoop_zero (d n : ℕ) : powLoop d n 0 = 0 := by
  induction n with
  | zero => rfl
  | succ n ih => rw [powLoop, ih, powSubs_zero]

theorem expand_fold {ord : Finset ℕ → List ℕ} (ho : ListsSets ord) (d n : ℕ) (f : SymPoly) :
    (List.range n).foldl (fun f i => (ord f.vars).foldl (fun f j => subsPow f j (d - i)) f) f =
      mapMono (fun m => m.mapRange (powLoop d n) (powLoop_zero d n)) f := by
  induction n with
  | zero =>
    refine (mapMono_self fun m _ => ?_).symm
    ext i; simp [powLoop]
  | succ n ih =>
    rw [List.range_succ, List.foldl_append, ih, List.foldl_cons, List.foldl_nil, subs_all ho, mapMono_comp]
    apply mapMono_congr
    intro m _
    ext i; simp [powAll, powLoop]

theorem powLoop_lt {d e : ℕ} (he : 1 ≤ e) (hd : e ≤ d) : ∀ n, n ≤ d - e → powLoop d n e = e := by
  intro n
  induction n with
  | zero => intro _; rfl
  | succ n ih =>
    intro hn
    rw [powLoop, ih (by omega), powSubs, if_neg]
    intro hdvd
    have := Nat.le_of_dvd he hdvd
    omega

theorem powLoop_ge {d e : ℕ} (he : 1 ≤ e) (hd : e ≤ d) : ∀ n, d - e < n → n ≤ d → powLoop d n e = 1 := by
  intro n
  induction n with
  | zero => intro h; omega
  | succ n ih =>
    intro hn hn'
    rw [powLoop]
    by_cases h : d - e < n
    · rw [ih h (by omega), powSubs]
      split_ifs with hdvd
      · have := Nat.le_of_dvd one_pos hdvd
        have : d - n = 1 := by omega
        rw [this]
      · rfl
    · have h1 : n = d - e := by omega
      rw [powLoop_lt he hd n (by omega), powSubs]
      have h2 : d - n = e := by omega
      rw [h2, if_pos (dvd_refl e), Nat.div_self he]

theorem powLoop_cap {d e : ℕ} (hd : e ≤ d) : powLoop d d e = min 1 e := by
  rcases Nat.eq_zero_or_pos e with h | h
  · subst h; rw [powLoop_zero]; rfl
  · rw [powLoop_ge h hd d (by omega) le_rfl]; omega

/-! ## Multilinear polynomials -/

/-- All exponents cut to at most 1. -/
def capMono (m : ℕ →₀ ℕ) : ℕ →₀ ℕ := m.mapRange (min 1) rfl

theorem expandQubo_cap {ord : Finset ℕ → List ℕ} (ho : ListsSets ord) {f : SymPoly} (hv : f.vars.Nonempty)
    (hd : ∀ i, f.degreeOf i ≤ f.degreeOf (f.vars.min' hv)) : expandQubo ord f = .ok (mapMono capMono f) := by
  rw [expandQubo, polyDegree, dif_pos hv]
  show Except.ok _ = _
  rw [expand_fold ho]
  congr 1
  apply mapMono_congr
  intro m hm
  ext i
  rw [Finsupp.mapRange_apply, capMono, Finsupp.mapRange_apply, powLoop_cap]
  exact le_trans (degreeOf_le_iff.1 le_rfl m hm) (hd i)

theorem cap_multilinear (f : SymPoly) : IsMultilinear (mapMono capMono f) := by
  intro m hm i
  obtain ⟨m', _, rfl⟩ := mapMono_support hm
  rw [capMono, Finsupp.mapRange_apply]; omega

theorem eval_mapMono (x : ℕ → ℝ) {g : (ℕ →₀ ℕ) → (ℕ →₀ ℕ)} {f : SymPoly}
    (h : ∀ m ∈ f.support, ∏ i ∈ (g m).support, x i ^ (g m) i = ∏ i ∈ m.support, x i ^ m i) :
    eval x (mapMono g f) = eval x f := by
  rw [mapMono_apply, map_sum, eval_eq x f]
  apply Finset.sum_congr rfl
  intro m hm
  rw [eval_monomial, ← h m hm]
  rfl

theorem bit_pow {b : ℝ} (hb : b = 0 ∨ b = 1) {e e' : ℕ} (h : e ≠ 0) (h' : e' ≠ 0) : b ^ e = b ^ e' := by
  rcases hb with rfl | rfl
  · rw [zero_pow h, zero_pow h']
  · rw [one_pow, one_pow]

theorem eval_bits {x : ℕ → ℝ} (hx : ∀ i, x i = 0 ∨ x i = 1) {g : (ℕ →₀ ℕ) → (ℕ →₀ ℕ)} {f : SymPoly}
    (h : ∀ m ∈ f.support, ∀ i, (g m) i = 0 ↔ m i = 0) : eval x (mapMono g f) = eval x f := by
  apply eval_mapMono
  intro m hm
  have hs : (g m).support = m.support := by
    ext i; simp only [Finsupp.mem_support_iff, ne_eq, h m hm]
  rw [hs]
  apply Finset.prod_congr rfl
  intro i hi
  have hi' := Finsupp.mem_support_iff.1 hi
  exact bit_pow (hx i) (fun h0 => hi' ((h m hm i).1 h0)) hi'

theorem eval_cap {x : ℕ → ℝ} (hx : ∀ i, x i = 0 ∨ x i = 1) (f : SymPoly) : eval x (mapMono capMono f) = eval x f := by
  apply eval_bits hx
  intro m _ i
  rw [capMono, Finsupp.mapRange_apply]; omega

theorem cap_self {f : SymPoly} (h : IsMultilinear f) : mapMono capMono f = f := by
  apply mapMono_self
  intro m hm
  ext i
  have := h m hm i
  rw [capMono, Finsupp.mapRange_apply]; omega

/-- A multilinear polynomial that vanishes on all bits is zero. -/
theorem multilinear_zero {f : SymPoly} (h : IsMultilinear f)
    (h0 : ∀ x : ℕ → ℝ, (∀ i, x i = 0 ∨ x i = 1) → eval x f = 0) : f = 0 := by
  by_contra hf
  obtain ⟨m, hm, hmin⟩ := Finset.exists_min_image f.support (fun m => m.support.card) (support_nonempty.2 hf)
  have he := h0 (fun i => if m i = 0 then 0 else 1) (fun i => by split_ifs <;> simp)
  rw [eval_eq, Finset.sum_eq_single m] at he
  · have : ∏ i ∈ m.support, (if m i = 0 then (0 : ℝ) else 1) ^ m i = 1 := by
      apply Finset.prod_eq_one
      intro i hi
      rw [if_neg (Finsupp.mem_support_iff.1 hi), one_pow]
    rw [this, mul_one] at he
    exact (mem_support_iff.1 hm) he
  · intro m' hm' hne
    have : ∃ i ∈ m'.support, m i = 0 := by
      by_contra hc
      push Not at hc
      have hsub : m'.support ⊆ m.support := fun i hi => Finsupp.mem_support_iff.2 (hc i hi)
      have heq := Finset.eq_of_subset_of_card_le hsub (hmin m' hm')
      apply hne
      ext i
      have h1 := h m hm i
      have h2 := h m' hm' i
      have h3 : m' i = 0 ↔ m i = 0 := by
        have : i ∈ m'.support ↔ i ∈ m.support := by rw [heq]
        simpa [Finsupp.mem_support_iff, not_iff_not] using this
      omega
    obtain ⟨i, hi, hi0⟩ := this
    rw [Finset.prod_eq_zero hi, mul_zero]
    rw [if_pos hi0, zero_pow (Finsupp.mem_support_iff.1 hi)]
  · intro hc; exact absurd hm hc

theorem multilinear_ext {f g : SymPoly} (hf : IsMultilinear f) (hg : IsMultilinear g)
    (h : ∀ x : ℕ → ℝ, (∀ i, x i = 0 ∨ x i = 1) → eval x f = eval x g) : f = g := by
  refine sub_eq_zero.1 (multilinear_zero (f := f - g) ?_ ?_)
  · intro m hm
    rcases Finset.mem_union.1 (support_sub _ f g hm) with h | h
    · exact hf m h
    · exact hg m h
  · intro x hx; rw [map_sub, h x hx, sub_self]

/-! ## Quadratic polynomials -/

/-- `c + Σ_i a_i q_i + Σ_{i<j} b_ij q_i q_j`. -/
def quadPoly (n : ℕ) (c : ℝ) (a : ℕ → ℝ) (b : ℕ → ℕ → ℝ) : SymPoly :=
  C c + ∑ i ∈ Finset.range n, monomial (Finsupp.single i 1) (a i) +
    ∑ i ∈ Finset.range n, ∑ j ∈ Finset.range n,
      if i < j then monomial (Finsupp.single i 1 + Finsupp.single j 1) (b i j) else 0

theorem single_ne_zero' (i : ℕ) : Finsupp.single i 1 ≠ (0 : ℕ →₀ ℕ) := by simp

theorem pair_apply (i j k : ℕ) : (Finsupp.single i 1 + Finsupp.single j 1 : ℕ →₀ ℕ) k =
    (if k = i then 1 else 0) + (if k = j then 1 else 0) := by
  rw [Finsupp.add_apply, Finsupp.single_apply, Finsupp.single_apply]
  congr 1 <;> (split_ifs <;> first | rfl | omega)

theorem pair_ne_zero (i j : ℕ) : (Finsupp.single i 1 + Finsupp.single j 1 : ℕ →₀ ℕ) ≠ 0 := by
  intro h
  have := DFunLike.congr_fun h i
  rw [pair_apply] at this; simp at this

theorem pair_ne_single {i j : ℕ} (h : i ≠ j) (k : ℕ) :
    (Finsupp.single i 1 + Finsupp.single j 1 : ℕ →₀ ℕ) ≠ Finsupp.single k 1 := by
  intro hh
  have h1 := DFunLike.congr_fun hh i
  have h2 := DFunLike.congr_fun hh j
  rw [pair_apply, Finsupp.single_apply] at h1 h2
  simp only [h, h.symm, if_true, if_false] at h1 h2
  split_ifs at h1 h2 <;> omega

theorem pair_inj {i j k l : ℕ} (h : i < j) (h' : k < l)
    (hh : (Finsupp.single i 1 + Finsupp.single j 1 : ℕ →₀ ℕ) = Finsupp.single k 1 + Finsupp.single l 1) :
    i = k ∧ j = l := by
  have h1 := DFunLike.congr_fun hh i
  have h2 := DFunLike.congr_fun hh j
  rw [pair_apply, pair_apply] at h1 h2
  split_ifs at h1 h2 <;> omega

theorem quad_coeff_zero (n : ℕ) (c : ℝ) (a : ℕ → ℝ) (b : ℕ → ℕ → ℝ) : (quadPoly n c a b).coeff 0 = c := by
  rw [quadPoly, coeff_add, coeff_add, coeff_C, if_pos rfl, coeff_sum, coeff_sum, Finset.sum_eq_zero, Finset.sum_eq_zero]
  · ring
  · intro i _
    rw [coeff_sum]
    apply Finset.sum_eq_zero
    intro j _
    split_ifs
    · rw [coeff_monomial, if_neg (pair_ne_zero i j)]
    · rfl
  · intro i _; rw [coeff_monomial, if_neg (single_ne_zero' i)]

theorem quad_coeff_single (n : ℕ) (c : ℝ) (a : ℕ → ℝ) (b : ℕ → ℕ → ℝ) (k : ℕ) :
    (quadPoly n c a b).coeff (Finsupp.single k 1) = if k < n then a k else 0 := by
  have h2 : coeff (Finsupp.single k 1) (∑ i ∈ Finset.range n, ∑ j ∈ Finset.range n,
      if i < j then monomial (Finsupp.single i 1 + Finsupp.single j 1) (b i j) else 0) = 0 := by
    rw [coeff_sum]
    apply Finset.sum_eq_zero
    intro i _
    rw [coeff_sum]
    apply Finset.sum_eq_zero
    intro j _
    split_ifs with h
    · rw [coeff_monomial, if_neg (pair_ne_single (by omega) k)]
    · rfl
  rw [quadPoly, coeff_add, coeff_add, h2, coeff_C, if_neg (single_ne_zero' k).symm, coeff_sum, zero_add, add_zero]
  simp only [coeff_monomial, Finsupp.single_left_inj one_ne_zero, Finset.sum_ite_eq', Finset.mem_range]

theorem quad_coeff_pair (n : ℕ) (c : ℝ) (a : ℕ → ℝ) (b : ℕ → ℕ → ℝ) {k l : ℕ} (h : k < l) :
    (quadPoly n c a b).coeff (Finsupp.single k 1 + Finsupp.single l 1) = if l < n then b k l else 0 := by
  have h1 : coeff (Finsupp.single k 1 + Finsupp.single l 1) (∑ i ∈ Finset.range n, monomial (Finsupp.single i 1) (a i)) =
      0 := by
    rw [coeff_sum]
    apply Finset.sum_eq_zero
    intro i _
    rw [coeff_monomial, if_neg (pair_ne_single (by omega) i).symm]
  rw [quadPoly, coeff_add, coeff_add, h1, coeff_C, if_neg (pair_ne_zero k l).symm, coeff_sum, zero_add, zero_add]
  have h3 : ∀ i j, coeff (Finsupp.single k 1 + Finsupp.single l 1)
      (if i < j then monomial (Finsupp.single i 1 + Finsupp.single j 1) (b i j) else 0) =
      if i = k then (if j = l then b k l else 0) else 0 := by
    intro i j
    by_cases hij : i < j
    · rw [if_pos hij, coeff_monomial]
      by_cases hk : i = k
      · subst hk
        by_cases hl : j = l
        · subst hl; simp
        · rw [if_neg, if_pos rfl, if_neg hl]
          intro hh; exact hl (pair_inj hij h hh).2
      · rw [if_neg, if_neg hk]
        intro hh; exact hk (pair_inj hij h hh).1
    · rw [if_neg hij, coeff_zero]
      by_cases hk : i = k
      · rw [if_pos hk, if_neg]; omega
      · rw [if_neg hk]
  simp only [coeff_sum, h3]
  rw [Finset.sum_comm]
  simp only [Finset.sum_ite_eq', Finset.mem_range]
  by_cases hl : l < n
  · rw [if_pos hl, Finset.sum_eq_single l]
    · rw [if_pos (by omega), if_pos rfl]
    · intro j _ hj; simp [hj]
    · intro hh; exact absurd (Finset.mem_range.2 hl) hh
  · rw [if_neg hl]
    apply Finset.sum_eq_zero
    intro j hj
    have : j ≠ l := by have := Finset.mem_range.1 hj; omega
    simp [this]

theorem quad_support {n : ℕ} {c : ℝ} {a : ℕ → ℝ} {b : ℕ → ℕ → ℝ} {m : ℕ →₀ ℕ}
    (hm : m ∈ (quadPoly n c a b).support) : m = 0 ∨ (∃ i < n, m = Finsupp.single i 1) ∨
      ∃ i j, i < j ∧ j < n ∧ m = Finsupp.single i 1 + Finsupp.single j 1 := by
  by_contra hc
  push Not at hc
  obtain ⟨h0, h1, h2⟩ := hc
  rw [mem_support_iff, quadPoly, coeff_add, coeff_add, coeff_C, if_neg h0.symm, coeff_sum, coeff_sum] at hm
  apply hm
  rw [Finset.sum_eq_zero, Finset.sum_eq_zero]
  · ring
  · intro i hi
    rw [coeff_sum]
    apply Finset.sum_eq_zero
    intro j hj
    split_ifs with h
    · rw [coeff_monomial, if_neg (h2 i j h (Finset.mem_range.1 hj)).symm]
    · rfl
  · intro i hi
    rw [coeff_monomial, if_neg (h1 i (Finset.mem_range.1 hi)).symm]

theorem quad_multilinear (n : ℕ) (c : ℝ) (a : ℕ → ℝ) (b : ℕ → ℕ → ℝ) : IsMultilinear (quadPoly n c a b) := by
  intro m hm k
  rcases quad_support hm with rfl | ⟨i, _, rfl⟩ | ⟨i, j, hij, _, rfl⟩
  · simp
  · rw [Finsupp.single_apply]; split_ifs <;> omega
  · rw [pair_apply]; split_ifs <;> omega

theorem quad_eval (n : ℕ) (c : ℝ) (a : ℕ → ℝ) (b : ℕ → ℕ → ℝ) (x : ℕ → ℝ) : eval x (quadPoly n c a b) =
    c + ∑ i ∈ Finset.range n, a i * x i + ∑ i ∈ Finset.range n, ∑ j ∈ Finset.range n,
      if i < j then b i j * x i * x j else 0 := by
  rw [quadPoly, map_add, map_add, eval_C, map_sum, map_sum]
  congr 1
  · congr 1
    apply Finset.sum_congr rfl
    intro i _; rw [eval_monomial, Finsupp.prod_single_index] <;> simp
  · apply Finset.sum_congr rfl
    intro i _
    rw [map_sum]
    apply Finset.sum_congr rfl
    intro j _
    split_ifs with h
    · rw [eval_monomial, Finsupp.prod_add_index', Finsupp.prod_single_index, Finsupp.prod_single_index] <;>
        simp [pow_add, mul_assoc]
    · exact map_zero _

theorem quad_eval' (n : ℕ) (c : ℝ) (a : ℕ → ℝ) (b : ℕ → ℕ → ℝ) (x : ℕ → ℝ) :
    eval x (quadPoly n c a b) = quadForm n c a b x := quad_eval n c a b x

theorem quad_vars {n : ℕ} {c : ℝ} {a : ℕ → ℝ} {b : ℕ → ℕ → ℝ}
    (h : ∀ i < n, a i ≠ 0 ∨ InProduct n b i) : (quadPoly n c a b).vars = Finset.range n := by
  ext i
  rw [mem_vars, Finset.mem_range]
  constructor
  · rintro ⟨m, hm, hi⟩
    rw [Finsupp.mem_support_iff] at hi
    rcases quad_support hm with rfl | ⟨k, hk, rfl⟩ | ⟨k, l, hkl, hl, rfl⟩
    · simp at hi
    · rw [Finsupp.single_apply] at hi
      split_ifs at hi with hh
      · omega
      · simp at hi
    · rw [pair_apply] at hi
      split_ifs at hi <;> first | omega | simp at hi
  · intro hi
    rcases h i hi with ha | ⟨j, hj, ⟨hij, hb⟩ | ⟨hij, hb⟩⟩
    · refine ⟨Finsupp.single i 1, ?_, by simp⟩
      rw [mem_support_iff, quad_coeff_single, if_pos hi]; exact ha
    · refine ⟨Finsupp.single i 1 + Finsupp.single j 1, ?_, ?_⟩
      · rw [mem_support_iff, quad_coeff_pair _ _ _ _ hij, if_pos hj]; exact hb
      · rw [Finsupp.mem_support_iff, pair_apply]; simp
    · refine ⟨Finsupp.single j 1 + Finsupp.single i 1, ?_, ?_⟩
      · rw [mem_support_iff, quad_coeff_pair _ _ _ _ hij, if_pos hi]; exact hb
      · rw [Finsupp.mem_support_iff, pair_apply]; simp

/-! ## Coefficients -/

theorem symCoeff_coeff (f : SymPoly) (S : Finset ℕ) (m : ℕ →₀ ℕ) (hm : ∀ i ∈ S, m i = 0) :
    (symCoeff f S).coeff m = f.coeff (m + ∑ i ∈ S, Finsupp.single i 1) := by
  have hone : ∀ k, (∑ i ∈ S, Finsupp.single i 1 : ℕ →₀ ℕ) k = if k ∈ S then 1 else 0 := by
    intro k
    rw [Finsupp.finset_sum_apply]
    simp [Finsupp.single_apply]
  rw [symCoeff, coeff_sum, Finset.sum_eq_single (m + ∑ i ∈ S, Finsupp.single i 1)]
  · rw [coeff_monomial, if_pos]
    ext k
    rw [Finsupp.filter_apply, Finsupp.add_apply, hone]
    by_cases hk : k ∈ S
    · simp [hk, hm k hk]
    · simp [hk]
  · intro m' hm' hne
    rw [coeff_monomial, if_neg]
    intro hh
    apply hne
    have h1 := (Finset.mem_filter.1 hm').2
    ext k
    have h2 := DFunLike.congr_fun hh k
    rw [Finsupp.filter_apply] at h2
    rw [Finsupp.add_apply, hone]
    by_cases hk : k ∈ S
    · rw [if_pos hk, h1 k hk, hm k hk]
    · rw [if_pos hk] at h2; rw [if_neg hk, h2, add_zero]
  · intro hh
    rw [Finset.mem_filter, not_and_or] at hh
    rcases hh with hh | hh
    · rw [notMem_support_iff] at hh
      rw [hh, map_zero, coeff_zero]
    · exfalso; apply hh
      intro i hi
      rw [Finsupp.add_apply, hone, if_pos hi, hm i hi]

theorem symCoeff_support {f : SymPoly} {S : Finset ℕ} {m : ℕ →₀ ℕ} (hm : m ∈ (symCoeff f S).support) :
    (∀ i ∈ S, m i = 0) ∧ m + ∑ i ∈ S, Finsupp.single i 1 ∈ f.support := by
  have h : ∀ i ∈ S, m i = 0 := by
    rw [mem_support_iff, symCoeff, coeff_sum] at hm
    obtain ⟨m', hm', hne⟩ := Finset.exists_ne_zero_of_sum_ne_zero hm
    rw [coeff_monomial] at hne
    have : m'.filter (fun i => i ∉ S) = m := by by_contra hc; rw [if_neg hc] at hne; exact hne rfl
    intro i hi
    rw [← this, Finsupp.filter_apply, if_neg (by simpa using hi)]
  refine ⟨h, ?_⟩
  rw [mem_support_iff] at hm ⊢
  rwa [symCoeff_coeff f S m h] at hm

theorem vars_empty_iff (f : SymPoly) : f.vars = ∅ ↔ ∀ m ∈ f.support, m = 0 := by
  constructor
  · intro h m hm
    ext i
    by_contra hi
    have : i ∈ f.vars := (mem_vars i).2 ⟨m, hm, Finsupp.mem_support_iff.2 hi⟩
    rw [h] at this; simp at this
  · intro h
    rw [Finset.eq_empty_iff_forall_notMem]
    intro i hi
    obtain ⟨m, hm, hi'⟩ := (mem_vars i).1 hi
    rw [h m hm] at hi'; simp at hi'

theorem quad_coeff_of_pair (n : ℕ) (c : ℝ) (a : ℕ → ℝ) (b : ℕ → ℕ → ℝ) {i j : ℕ} (h : i ≠ j) :
    (symCoeff (quadPoly n c a b) {i, j}).vars = ∅ ∧
    (symCoeff (quadPoly n c a b) {i, j}).coeff 0 = if max i j < n then b (min i j) (max i j) else 0 := by
  constructor
  · rw [vars_empty_iff]
    intro m hm
    obtain ⟨h0, h1⟩ := symCoeff_support hm
    rw [Finset.sum_pair h] at h1
    have hi := h0 i (by simp)
    have hj := h0 j (by simp)
    have ei : (m + (Finsupp.single i 1 + Finsupp.single j 1) : ℕ →₀ ℕ) i = 1 := by
      rw [Finsupp.add_apply, pair_apply, hi]; simp [h]
    have ej : (m + (Finsupp.single i 1 + Finsupp.single j 1) : ℕ →₀ ℕ) j = 1 := by
      rw [Finsupp.add_apply, pair_apply, hj]; simp [h.symm]
    have e : ∀ k, (m + (Finsupp.single i 1 + Finsupp.single j 1) : ℕ →₀ ℕ) k =
        m k + ((if k = i then 1 else 0) + (if k = j then 1 else 0)) := by
      intro k; rw [Finsupp.add_apply, pair_apply]
    generalize hM : (m + (Finsupp.single i 1 + Finsupp.single j 1) : ℕ →₀ ℕ) = M at *
    rcases quad_support h1 with rfl | ⟨k, hk, rfl⟩ | ⟨k, l, hkl, hl, rfl⟩
    · simp at ei
    · rw [Finsupp.single_apply] at ei ej
      split_ifs at ei ej; omega
    · rw [pair_apply] at ei ej
      ext r
      have er := e r
      rw [pair_apply] at er
      rw [Finsupp.zero_apply]
      split_ifs at ei ej er <;> omega
  · rw [symCoeff_coeff _ _ _ (by simp), zero_add, Finset.sum_pair h]
    rcases Nat.lt_or_gt_of_ne h with h' | h'
    · rw [quad_coeff_pair _ _ _ _ h', max_eq_right h'.le, min_eq_left h'.le]
    · rw [add_comm, quad_coeff_pair _ _ _ _ h', max_eq_left h'.le, min_eq_right h'.le]

theorem quad_coeff_of_single (n : ℕ) (c : ℝ) (a : ℕ → ℝ) (b : ℕ → ℕ → ℝ) (i : ℕ) :
    (symCoeff (quadPoly n c a b) {i}).coeff 0 = if i < n then a i else 0 := by
  rw [symCoeff_coeff _ _ _ (by simp), zero_add, Finset.sum_singleton, quad_coeff_single]

/-! ## The loops of `qubo_to_matrix` -/

/-- An entry can be computed and put into an `n` by `n` matrix. -/
def EntryOk (f : SymPoly) (n i j : ℕ) : Prop := i < n ∧ j < n ∧ (i ≠ j → (symCoeff f {i, j}).vars = ∅)

/-- The entry. -/
def entryVal (f : SymPoly) (i j : ℕ) : ℝ := (symCoeff f (if i = j then {i} else {i, j})).coeff 0

theorem vars_C' (c : ℝ) : (C c : SymPoly).vars = ∅ := vars_C

theorem qmEntry_ok {f : SymPoly} {m : NpMat} {n i j : ℕ} (hr : m.rows = n) (hc : m.cols = n) (h : EntryOk f n i j) :
    qmEntry f m i j = .ok (m.put i j (entryVal f i j)) := by
  obtain ⟨h1, h2, h3⟩ := h
  rw [qmEntry]
  by_cases hij : i = j
  · subst hij
    rw [if_neg (by simp), putSym, if_neg (by omega), symFloat, if_pos (vars_C' _)]
    simp [entryVal, coeff_C, bind, Except.bind, pure, Except.pure]
  · rw [if_pos hij, putSym, if_neg (by omega), symFloat, if_pos (h3 hij)]
    simp [entryVal, hij, bind, Except.bind, pure, Except.pure]

theorem qmEntry_err {f : SymPoly} {m : NpMat} {n i j : ℕ} (hr : m.rows = n) (hc : m.cols = n) (h : ¬EntryOk f n i j) :
    ∃ e, qmEntry f m i j = .error e := by
  rw [qmEntry]
  by_cases hb : m.rows ≤ i ∨ m.cols ≤ j
  · by_cases hij : i = j
    · subst hij
      exact ⟨.indexError, by rw [if_neg (by simp), putSym, if_pos (by omega)]⟩
    · exact ⟨.indexError, by rw [if_pos hij, putSym, if_pos hb]⟩
  · have h3 : i ≠ j ∧ (symCoeff f {i, j}).vars ≠ ∅ := by
      by_contra hc'
      apply h
      refine ⟨by omega, by omega, fun hij => ?_⟩
      by_contra hv; exact hc' ⟨hij, hv⟩
    refine ⟨.typeError, ?_⟩
    rw [if_pos h3.1, putSym, if_neg hb, symFloat, if_neg h3.2]; rfl

theorem qmRow_ok {f : SymPoly} {n i : ℕ} (L : List ℕ) (m : NpMat) (hr : m.rows = n) (hc : m.cols = n)
    (h : ∀ j ∈ L, EntryOk f n i j) : ∃ m', L.foldlM (fun m j => qmEntry f m i j) m = .ok m' ∧ m'.rows = n ∧ m'.cols = n ∧
      ∀ a b, m'.ent a b = if a = i ∧ b ∈ L then entryVal f i b else m.ent a b := by
  induction L generalizing m with
  | nil => exact ⟨m, rfl, hr, hc, by simp⟩
  | cons j L ih =>
    obtain ⟨m', h1, h2, h3, h4⟩ := ih (m.put i j (entryVal f i j)) hr hc (fun k hk => h k (by simp [hk]))
    refine ⟨m', ?_, h2, h3, ?_⟩
    · rw [List.foldlM_cons, qmEntry_ok hr hc (h j (by simp))]; exact h1
    · intro a b
      rw [h4]
      by_cases ha : a = i
      · by_cases hb : b ∈ L
        · simp [ha, hb]
        · by_cases hbj : b = j
          · subst hbj; simp [ha, hb, NpMat.put]
          · simp [ha, hb, hbj, NpMat.put]
      · simp [ha, NpMat.put]

theorem qmRow_err {f : SymPoly} {n i : ℕ} (L : List ℕ) (m : NpMat) (hr : m.rows = n) (hc : m.cols = n)
    (h : ∃ j ∈ L, ¬EntryOk f n i j) : ∃ e, L.foldlM (fun m j => qmEntry f m i j) m = .error e := by
  induction L generalizing m with
  | nil => simp at h
  | cons j L ih =>
    by_cases hj : EntryOk f n i j
    · obtain ⟨e, he⟩ := ih (m.put i j (entryVal f i j)) hr hc (by
        obtain ⟨k, hk, hk'⟩ := h
        rcases List.mem_cons.1 hk with rfl | hk
        · exact absurd hj hk'
        · exact ⟨k, hk, hk'⟩)
      exact ⟨e, by rw [List.foldlM_cons, qmEntry_ok hr hc hj]; exact he⟩
    · obtain ⟨e, he⟩ := qmEntry_err hr hc hj
      exact ⟨e, by rw [List.foldlM_cons, he]; rfl⟩

theorem qmAll_ok {f : SymPoly} {n : ℕ} (L L' : List ℕ) (m : NpMat) (hr : m.rows = n) (hc : m.cols = n)
    (h : ∀ i ∈ L, ∀ j ∈ L', EntryOk f n i j) :
    ∃ m', L.foldlM (fun m i => L'.foldlM (fun m j => qmEntry f m i j) m) m = .ok m' ∧ m'.rows = n ∧ m'.cols = n ∧
      ∀ a b, m'.ent a b = if a ∈ L ∧ b ∈ L' then entryVal f a b else m.ent a b := by
  induction L generalizing m with
  | nil => exact ⟨m, rfl, hr, hc, by simp⟩
  | cons i L ih =>
    obtain ⟨m1, h1, h2, h3, h4⟩ := qmRow_ok L' m hr hc (h i (by simp))
    obtain ⟨m', h1', h2', h3', h4'⟩ := ih m1 h2 h3 (fun k hk => h k (by simp [hk]))
    refine ⟨m', ?_, h2', h3', ?_⟩
    · rw [List.foldlM_cons, h1]; exact h1'
    · intro a b
      rw [h4', h4]
      by_cases ha : a ∈ L <;> by_cases hb : b ∈ L' <;> by_cases hai : a = i <;> simp [ha, hb, hai]

theorem qmAll_err {f : SymPoly} {n : ℕ} (L L' : List ℕ) (m : NpMat) (hr : m.rows = n) (hc : m.cols = n)
    (h : ∃ i ∈ L, ∃ j ∈ L', ¬EntryOk f n i j) :
    ∃ e, L.foldlM (fun m i => L'.foldlM (fun m j => qmEntry f m i j) m) m = .error e := by
  induction L generalizing m with
  | nil => simp at h
  | cons i L ih =>
    by_cases hi : ∀ j ∈ L', EntryOk f n i j
    · obtain ⟨m1, h1, h2, h3, h4⟩ := qmRow_ok L' m hr hc hi
      obtain ⟨e, he⟩ := ih m1 h2 h3 (by
        obtain ⟨k, hk, j, hj, hk'⟩ := h
        rcases List.mem_cons.1 hk with rfl | hk
        · exact absurd (hi j hj) hk'
        · exact ⟨k, hk, j, hj, hk'⟩)
      exact ⟨e, by rw [List.foldlM_cons, h1]; exact he⟩
    · push Not at hi
      obtain ⟨e, he⟩ := qmRow_err L' m hr hc hi
      exact ⟨e, by rw [List.foldlM_cons, he]; rfl⟩

/-! ## Texts and polynomials -/

theorem expand_eval (P : PolyText) (x : ℕ → ℝ) : eval x P.expand = valueOf P x := by
  induction P <;> simp_all [PolyText.expand, valueOf]

theorem expand_unique {P : PolyText} {f : SymPoly} (h : Denotes P f) : P.expand = f :=
  MvPolynomial.funext fun x => by rw [expand_eval, h]

end

end Blueqat
