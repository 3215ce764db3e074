import Verif.Props.SymPoly

/-!
# C75: `optx` and `optm`
-/

set_option linter.unusedSimpArgs false
set_option linter.unusedVariables false

namespace Blueqat

noncomputable section

open Classical MvPolynomial
open Spec

/-! ## Lemmas -/

theorem powSubs_two_zero (e : ℕ) : powSubs 2 e = 0 ↔ e = 0 := by
  rw [powSubs]; split_ifs with h
  · obtain ⟨k, rfl⟩ := h; omega
  · exact Iff.rfl

theorem powSubs_two_cap {e : ℕ} (h : e ≤ 2) : powSubs 2 e = min 1 e := by
  have : e = 0 ∨ e = 1 ∨ e = 2 := by omega
  rcases this with rfl | rfl | rfl <;> simp [powSubs]

/-- The polynomial after the substitutions of `optx` and `optm`, if no power is above 2. -/
theorem opt_reduce {ord : Finset ℕ → List ℕ} (ho : ListsSets ord) {P : PolyText} {f g : SymPoly} (hf : Denotes P f)
    (hd : ∀ i, f.degreeOf i ≤ 2) (hg : IsMultilinear g) (hb : ∀ x, IsBits x → eval x g = valueOf P x) :
    (ord P.expand.vars).foldl (fun f j => subsPow f j 2) P.expand = g := by
  rw [subs_all ho, expand_unique hf]
  have : mapMono (powAll 2) f = mapMono capMono f := by
    apply mapMono_congr
    intro m hm
    ext i
    rw [powAll, capMono, Finsupp.mapRange_apply, Finsupp.mapRange_apply, powSubs_two_cap]
    exact (degreeOf_le_iff.1 le_rfl m hm).trans (hd i)
  rw [this]
  apply multilinear_ext (cap_multilinear f) hg
  intro x hx
  rw [eval_cap hx, hf x, hb x hx]

theorem putSym_ok {m : NpMat} {n i j : ℕ} (hr : m.rows = n) (hc : m.cols = n) (hi : i < n) (hj : j < n) {v : SymPoly}
    (hv : v.vars = ∅) : putSym m i j v = .ok (m.put i j (v.coeff 0)) := by
  rw [putSym, if_neg (by omega), symFloat, if_pos hv]; rfl

theorem optmPairs_ok {n N : ℕ} {c : ℝ} {a : ℕ → ℝ} {b : ℕ → ℕ → ℝ} {i : ℕ} (hi : i < n) (hN : n ≤ N) (L : List ℕ)
    (hL : ∀ j ∈ L, i < j ∧ j < n) (m : NpMat) (hr : m.rows = n) (hc : m.cols = n) :
    ∃ m', L.foldlM (fun m j => putSym m i j (symCoeff (quadPoly N c a b) {i, j})) m = .ok m' ∧ m'.rows = n ∧
      m'.cols = n ∧ ∀ k l, m'.ent k l = if k = i ∧ l ∈ L then b i l else m.ent k l := by
  induction L generalizing m with
  | nil => exact ⟨m, rfl, hr, hc, by simp⟩
  | cons j L ih =>
    obtain ⟨h1, h2⟩ := hL j (by simp)
    obtain ⟨v1, v2⟩ := quad_coeff_of_pair N c a b (i := i) (j := j) (by omega)
    have v3 : (symCoeff (quadPoly N c a b) {i, j}).coeff 0 = b i j := by
      rw [v2, max_eq_right h1.le, min_eq_left h1.le, if_pos (by omega)]
    obtain ⟨m', e1, e2, e3, e4⟩ := ih (fun k hk => hL k (by simp [hk])) (m.put i j (b i j)) hr hc
    refine ⟨m', ?_, e2, e3, ?_⟩
    · rw [List.foldlM_cons, putSym_ok hr hc hi h2 v1, v3]; exact e1
    · intro k l
      rw [e4]
      by_cases hk : k = i
      · by_cases hl : l ∈ L
        · simp [hk, hl]
        · by_cases hlj : l = j
          · subst hlj; simp [hk, hl, NpMat.put]
          · simp [hk, hl, hlj, NpMat.put]
      · simp [hk, NpMat.put]

theorem quad_single_vars {N : ℕ} {c : ℝ} {a : ℕ → ℝ} {b : ℕ → ℕ → ℝ} {i : ℕ} (hi : i < N) :
    (symCoeff (quadPoly N c a b) {i}).vars ≠ ∅ ↔ InProduct N b i := by
  rw [ne_eq, vars_empty_iff]
  push Not
  constructor
  · rintro ⟨m, hm, hne⟩
    obtain ⟨h0, h1⟩ := symCoeff_support hm
    rw [Finset.sum_singleton] at h1
    have hmi := h0 i (by simp)
    have hc := mem_support_iff.1 h1
    rcases quad_support h1 with h | ⟨k, hk, h⟩ | ⟨k, l, hkl, hl, h⟩
    · have := DFunLike.congr_fun h i
      simp at this
    · exfalso; apply hne
      have h2 : k = i := by
        have := DFunLike.congr_fun h i
        rw [Finsupp.add_apply, Finsupp.single_apply, Finsupp.single_apply, if_pos rfl] at this
        by_contra hki; rw [if_neg hki] at this; omega
      subst h2
      exact add_eq_right.1 h
    · have h2 := DFunLike.congr_fun h i
      rw [Finsupp.add_apply, Finsupp.single_apply, if_pos rfl, hmi, pair_apply] at h2
      rw [h, quad_coeff_pair _ _ _ _ hkl, if_pos hl] at hc
      by_cases hik : i = k
      · subst hik; exact ⟨l, hl, Or.inl ⟨hkl, hc⟩⟩
      · by_cases hil : i = l
        · subst hil; exact ⟨k, by omega, Or.inr ⟨hkl, hc⟩⟩
        · rw [if_neg hik, if_neg hil] at h2; omega
  · rintro ⟨j, hj, hb⟩
    refine ⟨Finsupp.single j 1, ?_, single_ne_zero' j⟩
    have hij : j ≠ i := by rcases hb with hb | hb <;> omega
    rw [mem_support_iff, symCoeff_coeff _ _ _ (by
      intro k hk; rw [Finset.mem_singleton.1 hk, Finsupp.single_apply, if_neg hij]), Finset.sum_singleton]
    rcases hb with ⟨h, hb⟩ | ⟨h, hb⟩
    · rw [add_comm, quad_coeff_pair _ _ _ _ h, if_pos hj]; exact hb
    · rw [quad_coeff_pair _ _ _ _ h, if_pos hi]; exact hb

theorem mem_above {n i j : ℕ} (hi : i < n) : j ∈ List.range' (i + 1) (n - (i + 1)) ↔ i < j ∧ j < n := by
  rw [List.mem_range'_1]; omega

theorem optmRow_ok {n N : ℕ} {c : ℝ} {a : ℕ → ℝ} {b : ℕ → ℕ → ℝ} {i : ℕ} (hi : i < n) (hN : n ≤ N)
    (hp : InProduct N b i) (m : NpMat) (hr : m.rows = n) (hc : m.cols = n) :
    ∃ m', optmRow (quadPoly N c a b) n m i = .ok m' ∧ m'.rows = n ∧ m'.cols = n ∧
      ∀ k l, m'.ent k l = if k = i ∧ l = i then a i else if k = i ∧ i < l ∧ l < n then b i l else m.ent k l := by
  obtain ⟨m1, e1, e2, e3, e4⟩ := optmPairs_ok (c := c) (a := a) (b := b) hi hN (List.range' (i + 1) (n - (i + 1)))
    (fun j hj => (mem_above hi).1 hj) m hr hc
  refine ⟨m1.put i i (a i), ?_, e2, e3, ?_⟩
  · rw [optmRow, e1]
    show (do let c ← polyConst _; putSym m1 i i c) = _
    rw [polyConst, if_neg ((quad_single_vars (by omega)).2 hp), quad_coeff_of_single, if_pos (by omega)]
    show putSym m1 i i _ = _
    rw [putSym_ok e2 e3 hi hi (vars_C' _), coeff_C, if_pos rfl]
  · intro k l
    simp only [NpMat.put, e4, mem_above hi]

theorem optmRow_err {n N : ℕ} {c : ℝ} {a : ℕ → ℝ} {b : ℕ → ℕ → ℝ} {i : ℕ} (hi : i < n) (hN : n ≤ N)
    (hp : ¬InProduct N b i) (m : NpMat) (hr : m.rows = n) (hc : m.cols = n) :
    optmRow (quadPoly N c a b) n m i = .error .generatorsNeeded := by
  obtain ⟨m1, e1, e2, e3, e4⟩ := optmPairs_ok (c := c) (a := a) (b := b) hi hN (List.range' (i + 1) (n - (i + 1)))
    (fun j hj => (mem_above hi).1 hj) m hr hc
  rw [optmRow, e1]
  show (do let c ← polyConst _; putSym m1 i i c) = _
  rw [polyConst, if_pos (not_not.1 (mt (quad_single_vars (by omega)).1 hp))]
  rfl

theorem optmRows_ok {n N : ℕ} {c : ℝ} {a : ℕ → ℝ} {b : ℕ → ℕ → ℝ} (hN : n ≤ N) (k : ℕ) (hk : k ≤ n)
    (hp : ∀ i < k, InProduct N b i) :
    ∃ m', (List.range k).foldlM (optmRow (quadPoly N c a b) n) (npZeros n) = .ok m' ∧ m'.rows = n ∧ m'.cols = n ∧
      ∀ i j, m'.ent i j = if i < k then (if i = j then a i else if i < j ∧ j < n then b i j else 0) else 0 := by
  induction k with
  | zero => exact ⟨npZeros n, rfl, rfl, rfl, fun i j => by simp [npZeros]⟩
  | succ k ih =>
    obtain ⟨m1, e1, e2, e3, e4⟩ := ih (by omega) (fun i hi => hp i (by omega))
    obtain ⟨m', q1, q2, q3, q4⟩ := optmRow_ok (c := c) (a := a) (by omega : k < n) hN (hp k (by omega)) m1 e2 e3
    refine ⟨m', ?_, q2, q3, ?_⟩
    · rw [List.range_succ, List.foldlM_append, e1]
      show (List.foldlM _ m1 [k] : Except PyErr NpMat) = _
      rw [List.foldlM_cons, q1]; rfl
    · intro i j
      rw [q4, e4]
      by_cases hik : i = k
      · subst hik
        by_cases hij : i = j
        · subst hij; simp
        · have : j ≠ i := fun h => hij h.symm
          simp [hij, this]
      · have : i < k + 1 ↔ i < k := by omega
        simp [hik, this]

/-! ## C75 -/

/-- C75. `optx` returns, for every polynomial with symbols, a polynomial with the same values on bits. -/
theorem C75_optx (ord : Finset ℕ → List ℕ) (ho : ListsSets ord) (P : PolyText) (f : MvPolynomial ℕ ℝ)
    (hf : Denotes P f) (hv : f.vars ≠ ∅) :
    ∃ g, optx ord P = .ok g ∧ ∀ x, IsBits x → eval x g = valueOf P x := by
  refine ⟨mapMono (powAll 2) f, ?_, ?_⟩
  · rw [optx, expand_unique hf, if_neg hv, subs_all ho]
  · intro x hx
    rw [eval_bits hx, hf x]
    intro m _ i
    rw [powAll, Finsupp.mapRange_apply, powSubs_two_zero]

/-- C75. If no power is above 2, the result of `optx` has no powers at all. -/
theorem C75_optx_partial (ord : Finset ℕ → List ℕ) (ho : ListsSets ord) (P : PolyText) (f : MvPolynomial ℕ ℝ)
    (hf : Denotes P f) (hv : f.vars ≠ ∅) (hd : ∀ i, f.degreeOf i ≤ 2) :
    ∃ g, optx ord P = .ok g ∧ IsMultilinear g ∧ ∀ x, IsBits x → eval x g = valueOf P x := by
  have hb : ∀ x, IsBits x → eval x (mapMono capMono f) = valueOf P x := by
    intro x hx; rw [eval_cap hx, hf x]
  refine ⟨mapMono capMono f, ?_, cap_multilinear f, hb⟩
  have := opt_reduce ho hf hd (cap_multilinear f) hb
  rw [optx, if_neg (by rw [expand_unique hf]; exact hv), this]

/-- C75 is false of `optx` for other powers: an odd power is left alone. And constants raise ValueError. -/
theorem C75_optx_refuted (ord : Finset ℕ → List ℕ) (ho : ListsSets ord) :
    (∀ k, 3 ≤ k → k % 2 = 1 → optx ord (.pow (.sym 0) k) = .ok (X 0 ^ k) ∧ ¬IsMultilinear (X 0 ^ k)) ∧
    (∀ c, optx ord (.num c) = .error .valueError) := by
  constructor
  · intro k hk hodd
    have hf : Denotes (.pow (.sym 0) k) (X 0 ^ k) := by intro x; simp [valueOf]
    have hX : (X 0 ^ k : SymPoly) = monomial (Finsupp.single 0 k) 1 := X_pow_eq_monomial
    have hs : Finsupp.single 0 k ∈ (X 0 ^ k : SymPoly).support := by
      rw [hX, mem_support_iff, coeff_monomial, if_pos rfl]; exact one_ne_zero
    refine ⟨?_, ?_⟩
    · rw [optx, expand_unique hf, if_neg, subs_all ho, mapMono_self]
      · intro m hm
        have : m = Finsupp.single 0 k := by
          rw [hX, mem_support_iff, coeff_monomial] at hm
          by_contra hc; rw [if_neg fun h => hc h.symm] at hm; exact hm rfl
        subst this
        ext i
        rw [powAll, Finsupp.mapRange_apply, Finsupp.single_apply]
        split_ifs
        · rw [powSubs, if_neg (by omega)]
        · rw [powSubs_zero]
      · intro h
        rw [vars_empty_iff] at h
        have := DFunLike.congr_fun (h _ hs) 0
        simp at this; omega
    · intro h
      have := h _ hs 0
      simp at this; omega
  · intro c
    rw [optx, if_pos (show (PolyText.num c).expand.vars = ∅ from vars_C' c)]

/-- C75. `optm(P, n)` for a polynomial with powers up to 2 that is on bits a quadratic form in `q0, ..., q(N-1)` with
`n ≤ N`, where each of the first `n` symbols occurs in a product: the matrix with `a` on the diagonal and `b` above. -/
theorem C75_optm_partial (ord : Finset ℕ → List ℕ) (ho : ListsSets ord) (P : PolyText) (f : MvPolynomial ℕ ℝ)
    (hf : Denotes P f) (hd : ∀ i, f.degreeOf i ≤ 2) (n N : ℕ) (hn : 0 < n) (hN : n ≤ N) (c : ℝ) (a : ℕ → ℝ)
    (b : ℕ → ℕ → ℝ) (hq : ∀ x, IsBits x → valueOf P x = quadForm N c a b x) (hp : ∀ i < n, InProduct N b i) :
    ∃ m, optm ord P n = .ok m ∧ m.rows = n ∧ m.cols = n ∧
      (∀ i < n, ∀ j < n, m.ent i j = if i = j then a i else if i < j then b i j else 0) ∧
      (n = N → ∀ x, IsBits x → quboEnergy n m.ent x = valueOf P x - valueOf P (fun _ => 0)) := by
  have hb : ∀ x, IsBits x → eval x (quadPoly N c a b) = valueOf P x := by
    intro x hx; rw [quad_eval', hq x hx]
  obtain ⟨m, e1, e2, e3, e4⟩ := optmRows_ok (c := c) (a := a) hN n le_rfl hp
  have e5 : ∀ i < n, ∀ j < n, m.ent i j = if i = j then a i else if i < j then b i j else 0 := by
    intro i hi j hj; rw [e4, if_pos hi]; simp [hj]
  refine ⟨m, ?_, e2, e3, e5, ?_⟩
  · rw [optm, if_neg (by omega)]
    simp only
    rw [opt_reduce ho hf hd (quad_multilinear N c a b) hb, e1]
  · rintro rfl x hx
    have : quboEnergy n m.ent x = quboEnergy n (fun i j => if i = j then a i else if i < j then b i j else 0) x := by
      apply Finset.sum_congr rfl
      intro i hi
      apply Finset.sum_congr rfl
      intro j hj
      rw [e5 i (Finset.mem_range.1 hi) j (Finset.mem_range.1 hj)]
    rw [this, quad_energy n c a b x hx, hq x hx, hq _ bits_zero, quadForm_zero]

/-- C75 is false of `optm` if one of the first `n` symbols does not occur in a product: GeneratorsNeeded is raised. -/
theorem C75_optm_refuted (ord : Finset ℕ → List ℕ) (ho : ListsSets ord) (P : PolyText) (f : MvPolynomial ℕ ℝ)
    (hf : Denotes P f) (hd : ∀ i, f.degreeOf i ≤ 2) (n N : ℕ) (hn : 0 < n) (hN : n ≤ N) (c : ℝ) (a : ℕ → ℝ)
    (b : ℕ → ℕ → ℝ) (hq : ∀ x, IsBits x → valueOf P x = quadForm N c a b x) (hp : ∃ i < n, ¬InProduct N b i) :
    optm ord P n = .error .generatorsNeeded := by
  have hb : ∀ x, IsBits x → eval x (quadPoly N c a b) = valueOf P x := by
    intro x hx; rw [quad_eval', hq x hx]
  rw [optm, if_neg (by omega)]
  simp only
  rw [opt_reduce ho hf hd (quad_multilinear N c a b) hb]
  have hex : ∃ i, i < n ∧ ¬InProduct N b i := hp
  have h1 := Nat.find_spec hex
  have h2 : ∀ i < Nat.find hex, InProduct N b i := by
    intro i hi
    have := Nat.find_min hex hi
    by_contra hc
    exact this ⟨by omega, hc⟩
  generalize Nat.find hex = k at *
  obtain ⟨m, e1, e2, e3, e4⟩ := optmRows_ok (c := c) (a := a) hN k h1.1.le h2
  obtain ⟨r, hr⟩ : ∃ r, List.range n = List.range k ++ k :: r := by
    refine ⟨List.range' (k + 1) (n - (k + 1)), ?_⟩
    rw [List.range_eq_range', List.range_eq_range', ← List.range'_succ, show n - (k + 1) + 1 = n - k by omega]
    have := List.range'_append (s := 0) (m := k) (n := n - k) (step := 1)
    rw [show k + (n - k) = n by omega] at this
    simpa using this.symm
  rw [hr, List.foldlM_append, e1]
  show (List.foldlM _ m (k :: r) : Except PyErr NpMat) = _
  rw [List.foldlM_cons, optmRow_err h1.1 hN h1.2 m e2 e3]
  rfl

theorem mono3_degree (a b c d i : ℕ) : (X a * X b + X c * X d : SymPoly).degreeOf i ≤ 2 := by
  have h : ∀ a b, (X a * X b : SymPoly).degreeOf i ≤ 2 := by
    intro a b
    refine (degreeOf_mul_le i _ _).trans ?_
    rw [degreeOf_X, degreeOf_X]; split_ifs <;> simp
  exact (degreeOf_add_le i _ _).trans (max_le (h a b) (h c d))

/-- C75 is false of `optm` if there are more symbols than `n`: their terms are dropped without an error. -/
theorem C75_dropped_refuted (ord : Finset ℕ → List ℕ) (ho : ListsSets ord) : ∃ (P : PolyText) (m : NpMat),
    optm ord P 2 = .ok m ∧ ¬∃ c, ∀ x, IsBits x → quboEnergy 2 m.ent x + c = valueOf P x := by
  obtain ⟨m, h1, h2, h3, h4, _⟩ := C75_optm_partial ord ho
    (.add (.mul (.sym 0) (.sym 1)) (.mul (.sym 0) (.sym 2))) (X 0 * X 1 + X 0 * X 2) (by intro x; simp [valueOf])
    (mono3_degree 0 1 0 2) 2 3 (by omega) (by omega) 0 (fun _ => 0)
    (fun i j => if i = 0 then 1 else 0) (by
      intro x _
      simp [valueOf, quadForm, Finset.sum_range_succ])
    (by
      intro i hi
      have : i = 0 ∨ i = 1 := by omega
      rcases this with rfl | rfl
      · exact ⟨1, by omega, Or.inl ⟨by omega, by simp⟩⟩
      · exact ⟨0, by omega, Or.inr ⟨by omega, by simp⟩⟩)
  refine ⟨_, m, h1, ?_⟩
  rintro ⟨c, hc⟩
  have e0 := hc (fun i => if i = 0 then 1 else 0) (fun i => by by_cases h : i = 0 <;> simp [h])
  have e1 := hc (fun i => if i = 1 then 0 else 1) (fun i => by by_cases h : i = 1 <;> simp [h])
  simp [quboEnergy, Finset.sum_range_succ, valueOf] at e0 e1
  rw [e0] at e1; simp at e1

/-- `optm("q0 + q1", 2)` raises, and `optm("q0*q1 + q0*q1", 2)` does not. -/
example (ord : Finset ℕ → List ℕ) (ho : ListsSets ord) :
    optm ord (.add (.sym 0) (.sym 1)) 2 = .error .generatorsNeeded ∧
    ∃ m, optm ord (.add (.mul (.sym 0) (.sym 1)) (.mul (.sym 0) (.sym 1))) 2 = .ok m ∧ m.ent 0 1 = 2 := by
  constructor
  · refine C75_optm_refuted ord ho _ (X 0 + X 1) (by intro x; simp [valueOf]) ?_ 2 2 (by omega) le_rfl 0 (fun _ => 1)
      (fun _ _ => 0) (by intro x _; simp [valueOf, quadForm, Finset.sum_range_succ]) ⟨0, by omega, ?_⟩
    · intro i
      refine (degreeOf_add_le i _ _).trans ?_
      rw [degreeOf_X, degreeOf_X]; split_ifs <;> simp
    · rintro ⟨j, _, h⟩; simp at h
  · obtain ⟨m, h1, h2, h3, h4, _⟩ := C75_optm_partial ord ho
      (.add (.mul (.sym 0) (.sym 1)) (.mul (.sym 0) (.sym 1))) (X 0 * X 1 + X 0 * X 1) (by intro x; simp [valueOf])
      (mono3_degree 0 1 0 1) 2 2 (by omega) le_rfl 0 (fun _ => 0) (fun i j => 2) (by
        intro x _
        simp [valueOf, quadForm, Finset.sum_range_succ]
        ring)
      (by
        intro i hi
        have : i = 0 ∨ i = 1 := by omega
        rcases this with rfl | rfl
        · exact ⟨1, by omega, Or.inl ⟨by omega, by simp⟩⟩
        · exact ⟨0, by omega, Or.inr ⟨by omega, by simp⟩⟩)
    exact ⟨m, h1, by rw [h4 0 (by omega) 1 (by omega)]; simp⟩

end

end Blueqat
