import Verif.PauliMatrixOps

/-!
# Lemmas for `to_matrix`: the matrices are those of the operators
-/

set_option linter.unusedSimpArgs false
set_option linter.unusedVariables false

namespace Blueqat

open Spec

noncomputable section

/-! ## Numbers of qubits -/

theorem foldl_max_ge {α : Type} (f : α → ℕ) (l : List α) (m : ℕ) :
    m ≤ l.foldl (fun m o => max m (f o)) m ∧ ∀ o ∈ l, f o ≤ l.foldl (fun m o => max m (f o)) m := by
  induction l generalizing m with
  | nil => simp
  | cons x l ih =>
    obtain ⟨h1, h2⟩ := ih (max m (f x))
    rw [List.foldl_cons]
    refine ⟨le_trans (le_max_left _ _) h1, fun o ho => ?_⟩
    rcases List.mem_cons.1 ho with rfl | ho
    · exact le_trans (le_max_right _ _) h1
    · exact h2 o ho

theorem term_nQubits (t : PTerm) : ∀ o ∈ t.ops, o.n < t.nQubits := by
  intro o ho
  have := (foldl_max_ge (fun o : POp => o.n + 1) t.ops 0).2 o ho
  exact this

theorem expr_nQubits (e : PExpr) : ∀ t ∈ e.terms, ∀ o ∈ t.ops, o.n < e.nQubits := by
  intro t ht o ho
  have h1 := term_nQubits t o ho
  have h2 := (foldl_max_ge PTerm.nQubits (e.terms.filter (fun t => decide (t.ops ≠ []))) 0).2 t
    (List.mem_filter.2 ⟨ht, by simp; rintro h; rw [h] at ho; simp at ho⟩)
  exact lt_of_lt_of_le h1 h2

theorem simplify_qubits (t : PTerm) (n : ℕ) (h : ∀ o ∈ t.ops, o.n < n) : ∀ o ∈ t.simplify.ops, o.n < n := by
  intro o ho
  obtain ⟨l, h1, h2⟩ := simplifyLoop_sublist (simplifyBefore t.ops)
    (pySorted ((simplifyBefore t.ops).map Prod.fst)) t.coeff []
  rw [PTerm.simplify] at ho
  simp only at ho
  rw [h1, List.nil_append] at ho
  have h3 := h2.subset (List.mem_map_of_mem (f := POp.n) ho)
  rw [(pySorted_perm _).mem_iff, simplifyBefore_keys] at h3
  obtain ⟨o', ho', e⟩ := List.mem_map.1 h3
  rw [← e]; exact h o' ho'

theorem exprSimplify_qubits (e : PExpr) (n : ℕ) (h : ∀ t ∈ e.terms, ∀ o ∈ t.ops, o.n < n) :
    ∀ t ∈ e.simplify.terms, ∀ o ∈ t.ops, o.n < n := by
  have hd : DictIn (fun w : List POp => ∀ o ∈ w, o.n < n) e.simplifyDict := by
    refine dictIn_foldl_dictAdd _ _ (by intro w hw; simp at hw) ?_
    intro t ht
    obtain ⟨s, hs, rfl⟩ := List.mem_map.1 ht
    exact simplify_qubits s n (h s hs)
  intro t ht
  have hw : t.ops ∈ e.simplify.words := List.mem_map_of_mem ht
  rw [exprSimplify_words, simpWords, List.mem_filter, (sortByRepr_perm _).mem_iff] at hw
  exact hd _ hw.1

/-! ## Terms -/

/-- The entry of a simplified term, as the code finds it. -/
def entryOf (rm : Bool) (t : PTerm) (major minor : ℕ) : ℂ :=
  if major ^^^ xorBits t.ops = minor then t.coeff * wordPhase rm t.ops major else 0

theorem entryOf_row (t : PTerm) (hw : NormalWord t.ops) (i j : ℕ) : entryOf true t i j = termOp t (basis j) i := by
  rw [termOp, LinearMap.smul_apply, Pi.smul_apply, wordOp_entry _ hw, entryOf, smul_eq_mul]
  split_ifs <;> simp

theorem entryOf_col (t : PTerm) (hw : NormalWord t.ops) (i j : ℕ) : entryOf false t j i = termOp t (basis j) i := by
  rw [termOp, LinearMap.smul_apply, Pi.smul_apply, wordOp_entry_col _ hw, entryOf, smul_eq_mul]
  split_ifs <;> simp

theorem termToIndices_lt (t : PTerm) (hw : NormalWord t.ops) (n : ℕ) (h : ∀ o ∈ t.ops, o.n < n) :
    ∀ k ∈ termToIndices t (2 ^ n), k < 2 ^ n := by
  intro k hk
  obtain ⟨m, hm, rfl⟩ := List.mem_map.1 hk
  exact Nat.xor_lt_two_pow (List.mem_range.1 hm) (xorBits_lt _ hw n h)

theorem range_getD (n j d : ℕ) (h : j < n) : (List.range n).getD j d = j := by
  simp [List.getD, List.getElem?_range h]

theorem compressed_one (t : PTerm) (n : ℕ) (rm : Bool) (major minor : ℕ) (h : major < 2 ^ n) :
    compressedEntry (tab (2 ^ n) (fun j => t.coeff * wordPhase rm t.ops j)) (termToIndices t (2 ^ n))
      (List.range (2 ^ n + 1)) major minor = entryOf rm t major minor := by
  rw [compressedEntry, range_getD _ _ _ (by omega), range_getD _ _ _ (by omega), show major + 1 - major = 1 by omega]
  simp only [List.range'_one, List.map_cons, List.map_nil, List.sum_cons, List.sum_nil, add_zero]
  rw [termToIndices, rangeMap_getD _ _ _ _ h, tab_getD _ _ _ h, entryOf]

theorem pmRows_congr (d : ℕ) (f g : ℕ → ℕ → ℂ) (h : ∀ i < d, ∀ j < d, f i j = g i j) :
    (List.range d).map (fun i => (List.range d).map fun j => f i j) =
      (List.range d).map (fun i => (List.range d).map fun j => g i j) := by
  apply List.map_congr_left
  intro i hi
  apply List.map_congr_left
  intro j hj
  exact h i (List.mem_range.1 hi) j (List.mem_range.1 hj)

theorem check_one (t : PTerm) (hw : NormalWord t.ops) (n : ℕ) (h : ∀ o ∈ t.ops, o.n < n) (g : ℕ → ℂ) :
    compressedCheck (tab (2 ^ n) g) (termToIndices t (2 ^ n)) (List.range (2 ^ n + 1)) (2 ^ n) = true := by
  rw [compressedCheck, decide_eq_true_eq]
  refine ⟨by simp, range_getD _ _ _ (Nat.succ_pos _), by simp [termToIndices, tab_length], ?_, termToIndices_lt t hw n h⟩
  rw [range_getD _ _ _ (by omega)]; simp [termToIndices]

theorem cooRows_term (t : PTerm) (hw : NormalWord t.ops) (n : ℕ) (h : ∀ o ∈ t.ops, o.n < n) :
    cooRows (tab (2 ^ n) (fun j => t.coeff * wordPhase false t.ops j)) (termToIndices t (2 ^ n)) (List.range (2 ^ n))
      (2 ^ n) = .ok (opRows n (termOp t)) := by
  rw [cooRows, if_pos ⟨by simp [termToIndices, tab_length], by simp [tab_length], termToIndices_lt t hw n h,
    fun k hk => List.mem_range.1 hk⟩, opRows]
  congr 1
  apply pmRows_congr
  intro i hi j hj
  rw [tab_length, sum_range_single _ j hj, ← entryOf_col t hw, entryOf, termToIndices, rangeMap_getD _ _ _ _ hj,
    tab_getD _ _ _ hj, range_getD _ _ _ hj]
  · simp
  · intro k hk hkj
    rw [range_getD _ _ _ hk, if_neg (fun e => hkj e.2)]

theorem opRows_zero (c : ℂ) : opRows 0 (c • (1 : Operator)) = [[c]] := by
  simp [opRows, basis, List.range_succ]

theorem termToMatrix_ok (t : PTerm) (n : ℕ) (h : t.nQubits ≤ n) (f : SparseArg) (hf : f ≠ .other) :
    t.toMatrix n f = .ok ⟨f, opRows n (termOp t)⟩ := by
  rw [PTerm.toMatrix, if_neg hf]
  simp only [show (n : ℤ) ≠ -1 by omega, if_false]
  have hq : ∀ o ∈ t.ops, o.n < n := fun o ho => lt_of_lt_of_le (term_nQubits t o ho) h
  by_cases hn : n = 0
  · subst hn
    have : t.ops = [] := by
      rw [List.eq_nil_iff_forall_not_mem]; intro o ho; exact absurd (hq o ho) (by omega)
    simp [termOp, this, wordOp_nil, opRows_zero]
  · rw [if_neg (by omega)]
    have hw := simplify_normal t
    have hq' := simplify_qubits t n hq
    simp only [Int.toNat_natCast, bind, Except.bind]
    rw [termToDataarray_ok _ hw n (by omega) hq']
    simp only
    rw [← simplify_op t]
    split_ifs with h1 h2
    · rw [h1, cscRows, if_pos (check_one _ hw n hq' _)]
      simp only [Except.ok.injEq, PyMatrix.mk.injEq, true_and]
      apply pmRows_congr
      intro i hi j hj
      rw [← entryOf_col _ hw]
      exact compressed_one _ n _ _ _ hj
    · rw [h2, csrRows, if_pos (check_one _ hw n hq' _)]
      simp only [Except.ok.injEq, PyMatrix.mk.injEq, true_and]
      apply pmRows_congr
      intro i hi j hj
      rw [← entryOf_row _ hw]
      exact compressed_one _ n _ _ _ hi
    · rw [show decide (f = .csr) = false by simp [h2], cooRows_term _ hw n hq']

theorem termToMatrix_default (t : PTerm) (f : SparseArg) : t.toMatrix (-1) f = t.toMatrix t.nQubits f := by
  simp only [PTerm.toMatrix, if_true]
  simp only [show ((t.nQubits : ℤ) = -1) = False by simp, if_false]

/-! ## Strided assignment -/

theorem setStride_length {α : Type} (step pos : ℕ) (v a : List α) : (setStride step pos v a).length = a.length := by
  induction v generalizing pos a with
  | nil => rfl
  | cons x v ih => rw [setStride, ih, List.length_set]

theorem setStride_miss {α : Type} (step pos : ℕ) (v a : List α) (p : ℕ) (h : ∀ k < v.length, p ≠ pos + step * k) :
    (setStride step pos v a)[p]? = a[p]? := by
  induction v generalizing pos a with
  | nil => rfl
  | cons x v ih =>
    rw [setStride, ih, List.getElem?_set_ne]
    · have := h 0 (by simp); omega
    · intro k hk
      have := h (k + 1) (by simpa using hk)
      rw [Nat.mul_succ] at this; omega

theorem setStride_hit {α : Type} (step pos : ℕ) (hs : 0 < step) (v a : List α) (k : ℕ) (hk : k < v.length)
    (hp : pos + step * k < a.length) : (setStride step pos v a)[pos + step * k]? = v[k]? := by
  induction v generalizing pos a k with
  | nil => simp at hk
  | cons x v ih =>
    rw [setStride]
    cases k with
    | zero =>
      rw [setStride_miss]
      · simp at hp ⊢; rw [List.getElem?_set_self hp]
      · intro k _; simp; omega
    | succ k =>
      rw [Nat.mul_succ] at hp
      rw [show pos + step * (k + 1) = pos + step + step * k by rw [Nat.mul_succ]; omega,
        ih (pos + step) _ k (by simpa using hk) (by rw [List.length_set]; omega)]
      simp

/-! ## Groups -/

theorem groupByKey_flatten {α : Type} (key : α → ℕ) (l : List α) : (groupByKey key l).flatten = l := by
  induction l with
  | nil => rfl
  | cons x l ih =>
    rw [groupByKey]
    match h : groupByKey key l with
    | [] => rw [h] at ih; simp at ih; simp [← ih]
    | [] :: r => rw [h] at ih; simp at ih; simp [ih]
    | (y :: g) :: r =>
      rw [h] at ih
      simp only
      split_ifs
      · simp at ih ⊢; exact ih
      · simp at ih ⊢; exact ih

theorem groupByKey_keys {α : Type} (key : α → ℕ) (l : List α) :
    ∀ g ∈ groupByKey key l, g ≠ [] ∧ ∀ x ∈ g, ∀ y ∈ g, key x = key y := by
  induction l with
  | nil => simp [groupByKey]
  | cons x l ih =>
    rw [groupByKey]
    match h : groupByKey key l with
    | [] => intro g hg; simp at hg; subst hg; simp
    | [] :: r => rw [h] at ih; have := (ih [] (by simp)).1; simp at this
    | (y :: g) :: r =>
      rw [h] at ih
      have hy := (ih (y :: g) (by simp)).2
      simp only
      split_ifs with e
      · intro G hG
        rcases List.mem_cons.1 hG with rfl | hG
        · refine ⟨by simp, ?_⟩
          intro a ha b hb
          have key1 : ∀ a ∈ x :: y :: g, key a = key y := by
            intro a ha
            rcases List.mem_cons.1 ha with rfl | ha
            · exact e
            · exact hy a ha y (by simp)
          rw [key1 a ha, key1 b hb]
        · exact ih G (List.mem_cons_of_mem _ hG)
      · intro G hG
        rcases List.mem_cons.1 hG with rfl | hG
        · simp
        · exact ih G hG

theorem addArrays_tab (n : ℕ) (g h : ℕ → ℂ) : addArrays (tab n g) (tab n h) = tab n (fun j => g j + h j) := by
  simp [addArrays, tab, List.zipWith_map, List.zipWith_self]

/-- The accumulated values of a group. -/
def groupVal (rm : Bool) (ts : List PTerm) (j : ℕ) : ℂ := (ts.map (fun t => t.coeff * wordPhase rm t.ops j)).sum

theorem groupValues_ok (n : ℕ) (hn : 0 < n) (rm : Bool) (ts : List PTerm)
    (h : ∀ t ∈ ts, NormalWord t.ops ∧ ∀ o ∈ t.ops, o.n < n) (g : ℕ → ℂ) :
    groupValues n rm ts (tab (2 ^ n) g) = .ok (tab (2 ^ n) (fun j => g j + groupVal rm ts j)) := by
  induction ts generalizing g with
  | nil => simp [groupValues, groupVal]
  | cons t ts ih =>
    obtain ⟨h1, h2⟩ := h t (by simp)
    rw [groupValues, termToDataarray_ok t h1 n hn h2]
    simp only [bind, Except.bind]
    rw [addArrays_tab, ih (fun s hs => h s (List.mem_cons_of_mem _ hs))]
    congr 2
    funext j
    simp [groupVal, add_assoc]

theorem fillGroups_ok (n N : ℕ) (hn : 0 < n) (rm : Bool) (grps : List (List PTerm))
    (hg : ∀ g ∈ grps, g ≠ [] ∧ (∀ s ∈ g, ∀ t ∈ g, xorBits s.ops = xorBits t.ops) ∧
      ∀ t ∈ g, NormalWord t.ops ∧ ∀ o ∈ t.ops, o.n < n) :
    ∀ (i : ℕ) (vals : List ℂ) (inds : List ℕ), i + grps.length = N → vals.length = N * 2 ^ n →
      inds.length = N * 2 ^ n →
      ∃ vals' inds', fillGroups n (2 ^ n) N rm i grps vals inds = .ok (vals', inds') ∧
        vals'.length = N * 2 ^ n ∧ inds'.length = N * 2 ^ n ∧
        (∀ k < 2 ^ n, ∀ m < i, vals'[m + N * k]? = vals[m + N * k]? ∧ inds'[m + N * k]? = inds[m + N * k]?) ∧
        ∀ k < 2 ^ n, ∀ m g, grps[m]? = some g → vals'[(i + m) + N * k]? = some (groupVal rm g k) ∧
          ∀ t ∈ g, inds'[(i + m) + N * k]? = some (k ^^^ xorBits t.ops) := by
  induction grps with
  | nil =>
    intro i vals inds _ h1 h2
    exact ⟨vals, inds, rfl, h1, h2, fun _ _ _ _ => ⟨rfl, rfl⟩, fun _ _ m g h => by simp at h⟩
  | cons g grps ih =>
    intro i vals inds hi h1 h2
    obtain ⟨hne, hx, hw⟩ := hg g (by simp)
    obtain ⟨t, ts, rfl⟩ := List.exists_cons_of_ne_nil hne
    obtain ⟨hw1, hw2⟩ := hw t (by simp)
    rw [List.length_cons] at hi
    have hv : groupValues n rm ts (tab (2 ^ n) (fun j => t.coeff * wordPhase rm t.ops j)) =
        .ok (tab (2 ^ n) (groupVal rm (t :: ts))) := by
      rw [groupValues_ok n hn rm ts (fun s hs => hw s (List.mem_cons_of_mem _ hs))]
      congr 2
    obtain ⟨vals', inds', e, l1, l2, l3, l4⟩ := ih (fun g hg' => hg g (List.mem_cons_of_mem _ hg')) (i + 1)
      (setStride N i (tab (2 ^ n) (groupVal rm (t :: ts))) vals) (setStride N i (termToIndices t (2 ^ n)) inds)
      (by omega) (by rw [setStride_length]; exact h1) (by rw [setStride_length]; exact h2)
    have hlt : ∀ k < 2 ^ n, ∀ m < N, m + N * k < N * 2 ^ n := by
      intro k hk m hm
      have : N * (k + 1) ≤ N * 2 ^ n := Nat.mul_le_mul_left _ hk
      rw [Nat.mul_succ] at this; omega
    have hmiss : ∀ k m, m < i → ∀ k', m + N * k ≠ i + N * k' := by
      intro k m hm k' e
      have := congrArg (· % N) e
      simp only [Nat.add_mul_mod_self_left] at this
      rw [Nat.mod_eq_of_lt (by omega), Nat.mod_eq_of_lt (by omega)] at this
      omega
    refine ⟨vals', inds', ?_, l1, l2, ?_, ?_⟩
    · rw [fillGroups, termToDataarray_ok t hw1 n hn hw2]
      simp only [bind, Except.bind]
      rw [hv]
      exact e
    · intro k hk m hm
      obtain ⟨a, b⟩ := l3 k hk m (by omega)
      rw [a, b, setStride_miss _ _ _ _ _ (fun k' _ => hmiss k m hm k'),
        setStride_miss _ _ _ _ _ (fun k' _ => hmiss k m hm k')]
      exact ⟨rfl, rfl⟩
    · intro k hk m g hm
      cases m with
      | zero =>
        simp only [List.getElem?_cons_zero, Option.some.injEq] at hm
        subst hm
        obtain ⟨a, b⟩ := l3 k hk i (by omega)
        have hk' := hlt k hk i (by omega)
        rw [Nat.add_zero, a, setStride_hit _ _ (by omega) _ _ k (by rw [tab_length]; exact hk) (by omega), b,
          setStride_hit _ _ (by omega) _ _ k (by simpa [termToIndices] using hk) (by omega)]
        refine ⟨by simp [tab, List.getElem?_map, List.getElem?_range hk], fun s hs => ?_⟩
        rw [termToIndices, List.getElem?_map, List.getElem?_range hk, Option.map_some, hx t (by simp) s hs]
      | succ m =>
        have := l4 k hk m g (by simpa using hm)
        rw [show i + (m + 1) = i + 1 + m by omega]
        exact this

theorem sum_range_groups (G : List (List PTerm)) (h : PTerm → ℂ) (F : ℕ → ℂ)
    (hF : ∀ m g, G[m]? = some g → F m = (g.map h).sum) :
    ((List.range G.length).map F).sum = (G.flatten.map h).sum := by
  induction G generalizing F with
  | nil => simp
  | cons g G ih =>
    rw [List.length_cons, List.range_succ_eq_map, List.map_cons, List.sum_cons, hF 0 g rfl, List.map_map,
      ih (F ∘ Nat.succ) (fun m g' hm => hF (m + 1) g' (by simpa using hm))]
    simp

theorem sum_if (b : Prop) [Decidable b] (l : List PTerm) (h : PTerm → ℂ) :
    (if b then (l.map h).sum else 0) = (l.map (fun t => if b then h t else 0)).sum := by
  split_ifs
  · rfl
  · symm; apply List.sum_eq_zero; simp

/-- The entries the filled arrays describe. -/
theorem compressed_groups (n N : ℕ) (rm : Bool) (grps : List (List PTerm)) (hN : grps.length = N)
    (hx : ∀ g ∈ grps, g ≠ [] ∧ ∀ s ∈ g, ∀ t ∈ g, xorBits s.ops = xorBits t.ops)
    (vals : List ℂ) (inds : List ℕ)
    (hv : ∀ k < 2 ^ n, ∀ m g, grps[m]? = some g → vals[m + N * k]? = some (groupVal rm g k) ∧
      ∀ t ∈ g, inds[m + N * k]? = some (k ^^^ xorBits t.ops)) (major minor : ℕ) (h : major < 2 ^ n) :
    compressedEntry vals inds ((List.range (2 ^ n + 1)).map (fun k => k * N)) major minor =
      (grps.flatten.map (fun t => entryOf rm t major minor)).sum := by
  rw [compressedEntry, rangeMap_getD _ _ _ _ (by omega), rangeMap_getD _ _ _ _ (by omega),
    show (major + 1) * N - major * N = N by rw [Nat.succ_mul]; omega, List.range'_eq_map_range, List.map_map, ← hN]
  apply sum_range_groups
  intro m g hm
  obtain ⟨h1, h2⟩ := hv major h m g hm
  obtain ⟨hne, hk⟩ := hx g (List.mem_of_getElem? hm)
  obtain ⟨t, ts, rfl⟩ := List.exists_cons_of_ne_nil hne
  have h3 := h2 t (by simp)
  have e : major * grps.length + m = m + N * major := by rw [hN, mul_comm]; omega
  simp only [Function.comp, e, List.getD, h1, h3, Option.getD_some]
  rw [groupVal, sum_if]
  congr 1
  apply List.map_congr_left
  intro s hs
  rw [entryOf, hk s hs t (by simp)]

theorem sum_apply (l : List PTerm) (ψ : Vec) (i : ℕ) :
    (l.map termOp).sum ψ i = (l.map (fun t => termOp t ψ i)).sum := by
  induction l with
  | nil => rfl
  | cons t l ih => simp only [List.map_cons, List.sum_cons, LinearMap.add_apply, Pi.add_apply, ih]

theorem arangeStep_ok (N d : ℕ) (hN : 0 < N) : arangeStep (N * d + 1) N = .ok ((List.range (d + 1)).map (fun k => k * N)) := by
  rw [arangeStep, if_neg (by omega), show N * d + 1 + N - 1 = N * (d + 1) by rw [Nat.mul_succ]; omega,
    Nat.mul_div_cancel_left _ hN]

theorem exprToMatrix_ok (jv : ℕ → ℂ) (ji : ℕ → ℕ) (e : PExpr) (n : ℕ) (h : e.nQubits ≤ n) (hz : n = 0 ∨ exprOp e ≠ 0)
    (f : SparseArg) (hf : f ≠ .other) : e.toMatrix jv ji n f = .ok ⟨f, opRows n (exprOp e)⟩ := by
  rw [PExpr.toMatrix, if_neg hf]
  simp only [show ((n : ℤ) = -1) = False by simp, if_false]
  have hq : ∀ t ∈ e.terms, ∀ o ∈ t.ops, o.n < n :=
    fun t ht o ho => lt_of_lt_of_le (expr_nQubits e t ht o ho) h
  by_cases hn : n = 0
  · subst hn
    have hops : ∀ t ∈ e.terms, t.ops = [] := by
      intro t ht
      rw [List.eq_nil_iff_forall_not_mem]; intro o ho; exact absurd (hq t ht o ho) (by omega)
    have : exprOp e = ((e.terms.map PTerm.coeff).sum) • (1 : Operator) := by
      rw [exprOp]
      obtain ⟨ts⟩ := e
      clear hz h hq
      induction ts with
      | nil => simp
      | cons t ts ih =>
        simp only [List.map_cons, List.sum_cons]
        rw [ih (fun s hs => hops s (List.mem_cons_of_mem _ hs)), termOp, hops t (by simp), wordOp_nil, add_smul]
    rw [this, opRows_zero]; simp
  · have hz : exprOp e ≠ 0 := by
      rcases hz with h0 | h0
      · exact absurd h0 hn
      · exact h0
    rw [if_neg (by omega), if_neg (by omega)]
    simp only [Int.toNat_natCast]
    set key : PTerm → ℕ := fun t => xorBits t.ops with hkey
    set sorted := e.simplify.terms.mergeSort (fun s t => decide (key s ≤ key t)) with hsorted
    have hperm : sorted.Perm e.simplify.terms := List.mergeSort_perm _ _
    have hflat := groupByKey_flatten key sorted
    have hkeys := groupByKey_keys key sorted
    set grps := groupByKey key sorted with hgrps
    have hmem : ∀ g ∈ grps, ∀ t ∈ g, NormalWord t.ops ∧ ∀ o ∈ t.ops, o.n < n := by
      intro g hg t ht
      have : t ∈ e.simplify.terms := by
        rw [← hperm.mem_iff, ← hflat]; exact List.mem_flatten.2 ⟨g, hg, ht⟩
      exact ⟨exprSimplify_normal e _ (List.mem_map_of_mem this), exprSimplify_qubits e n hq t this⟩
    have hN : 0 < grps.length := by
      rw [List.length_pos_iff]
      intro h0
      rw [h0] at hflat
      apply hz
      rw [← exprSimplify_op e, exprOp]
      have : e.simplify.terms = [] := by
        rw [← hflat] at hperm; simpa using hperm
      rw [this]; rfl
    have hentry : ∀ i j, (grps.flatten.map (fun t => termOp t (basis j) i)).sum = exprOp e (basis j) i := by
      intro i j
      rw [hflat, (hperm.map _).sum_eq, ← sum_apply, ← exprSimplify_op e]; rfl
    have hrow : ∀ i j, (grps.flatten.map (fun t => entryOf true t i j)).sum = exprOp e (basis j) i := by
      intro i j
      rw [← hentry]
      congr 1
      apply List.map_congr_left
      intro t ht
      obtain ⟨g, hg, ht⟩ := List.mem_flatten.1 ht
      exact entryOf_row t (hmem g hg t ht).1 i j
    have hcol : ∀ i j, (grps.flatten.map (fun t => entryOf false t j i)).sum = exprOp e (basis j) i := by
      intro i j
      rw [← hentry]
      congr 1
      apply List.map_congr_left
      intro t ht
      obtain ⟨g, hg, ht⟩ := List.mem_flatten.1 ht
      exact entryOf_col t (hmem g hg t ht).1 i j
    obtain ⟨vals, inds, e1, e2, e3, -, e4⟩ := fillGroups_ok n grps.length (by omega) (decide (f = .csr)) grps
      (fun g hg => ⟨(hkeys g hg).1, (hkeys g hg).2, hmem g hg⟩) 0 ((List.range (grps.length * 2 ^ n)).map jv)
      ((List.range (grps.length * 2 ^ n)).map ji) (by omega) (by simp) (by simp)
    simp only [zero_add] at e4
    have hcheck : compressedCheck vals inds ((List.range (2 ^ n + 1)).map (fun k => k * grps.length)) (2 ^ n) = true := by
      rw [compressedCheck, decide_eq_true_eq]
      refine ⟨by simp, ?_, by omega, ?_, ?_⟩
      · rw [rangeMap_getD _ _ _ _ (Nat.succ_pos _)]; simp
      · rw [rangeMap_getD _ _ _ _ (by omega), e3, mul_comm]
      · intro x hx
        obtain ⟨p, hp⟩ := List.mem_iff_getElem?.1 hx
        have hp' := (List.getElem?_eq_some_iff.1 hp).1
        rw [e3] at hp'
        have hk : p / grps.length < 2 ^ n := Nat.div_lt_of_lt_mul hp'
        have hm : p % grps.length < grps.length := Nat.mod_lt _ hN
        obtain ⟨t, ts, hg⟩ := List.exists_cons_of_ne_nil (hkeys (grps[p % grps.length]'hm) (List.getElem_mem _)).1
        have := (e4 (p / grps.length) hk (p % grps.length) (t :: ts)
          (by rw [List.getElem?_eq_getElem hm, hg])).2 t (by simp)
        rw [Nat.mod_add_div, hp, Option.some.injEq] at this
        rw [this]
        have ht := hmem _ (List.getElem_mem hm) t (by rw [hg]; simp)
        exact Nat.xor_lt_two_pow hk (xorBits_lt _ ht.1 n ht.2)
    simp only [bind, Except.bind]
    rw [e1]
    simp only
    rw [arangeStep_ok _ _ hN]
    simp only
    by_cases hc : f = .csr
    · simp only [hc, decide_true, if_true] at e4 ⊢
      rw [csrRows, if_pos hcheck]
      simp only [Except.ok.injEq, PyMatrix.mk.injEq, true_and]
      apply pmRows_congr
      intro i hi j hj
      rw [← hrow]
      exact compressed_groups n grps.length true grps rfl (fun g hg => hkeys g hg) vals inds e4 i j hi
    · simp only [hc, decide_false, Bool.false_eq_true, if_false] at e4 ⊢
      rw [cscRows, if_pos hcheck]
      simp only [Except.ok.injEq, PyMatrix.mk.injEq, true_and]
      apply pmRows_congr
      intro i hi j hj
      rw [← hcol]
      exact compressed_groups n grps.length false grps rfl (fun g hg => hkeys g hg) vals inds e4 j i hj

theorem exprToMatrix_zero (jv : ℕ → ℂ) (ji : ℕ → ℕ) (e : PExpr) (n : ℕ) (hn : 0 < n) (hz : exprOp e = 0)
    (f : SparseArg) (hf : f ≠ .other) : e.toMatrix jv ji n f = .error .zeroDivisionError := by
  have hs : e.simplify = ⟨[]⟩ := by
    have : (⟨[]⟩ : PExpr).simplify = ⟨[]⟩ := by
      simp [PExpr.simplify, PExpr.simplifyDict, sortByRepr, PExpr.fromTermsIter]
    rw [← this]
    exact simplify_canonical (by rw [hz]; simp [exprOp])
  rw [PExpr.toMatrix, if_neg hf]
  simp only [show ((n : ℤ) = -1) = False by simp, if_false]
  rw [if_neg (by omega), if_neg (by omega), hs]
  simp [groupByKey, fillGroups, arangeStep, bind, Except.bind]

theorem exprToMatrix_default (jv : ℕ → ℂ) (ji : ℕ → ℕ) (e : PExpr) (f : SparseArg) :
    e.toMatrix jv ji (-1) f = e.toMatrix jv ji e.nQubits f := by
  simp only [PExpr.toMatrix, if_true]
  simp only [show ((e.nQubits : ℤ) = -1) = False by simp, if_false]

end

end Blueqat
