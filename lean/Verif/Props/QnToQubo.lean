import Verif.NbodyLemmas
import Verif.QuboLemmas

/-!
# Property C53: QUBO matrices from expressions
-/

set_option linter.unusedSimpArgs false
set_option linter.unusedVariables false

namespace Blueqat

open Spec Finset

noncomputable section

/-- A matrix as a list of `n` rows of length `n`. -/
def IsSquare (n : ℕ) (q : Rows) : Prop := q.length = n ∧ ∀ r ∈ q, r.length = n

theorem put_square (n : ℕ) (q : Rows) (i j : ℕ) (v : ℝ) (h : IsSquare n q) : IsSquare n (q.put i j v) := by
  refine ⟨by rw [Rows.put, List.length_modify]; exact h.1, fun r hr => ?_⟩
  rw [Rows.put, List.mem_iff_getElem] at hr
  obtain ⟨k, hk, rfl⟩ := hr
  rw [List.length_modify] at hk
  rw [List.getElem_modify]
  split_ifs
  · rw [List.length_set]; exact h.2 _ (List.getElem_mem hk)
  · exact h.2 _ (List.getElem_mem hk)

theorem put_entry (n : ℕ) (q : Rows) (i j : ℕ) (v : ℝ) (h : IsSquare n q) (hi : i < n) (hj : j < n) (a b : ℕ) :
    entryOf (q.put i j v) a b = if a = i ∧ b = j then v else entryOf q a b := by
  have hi' : i < q.length := by rw [h.1]; exact hi
  simp only [entryOf, Rows.put, List.getD_eq_getElem?_getD, List.getElem?_modify]
  by_cases ha : i = a
  · subst ha
    have hl : q[i].length = n := h.2 _ (List.getElem_mem hi')
    simp only [if_true, List.getElem?_eq_getElem hi', Option.map_some, Option.getD_some, List.getElem?_set]
    by_cases hb : j = b
    · subst hb
      simp [hl, hj]
    · simp [hb, Ne.symm hb]
  · simp [ha, Ne.symm ha]

theorem put_energy (n : ℕ) (q : Rows) (i j : ℕ) (v : ℝ) (h : IsSquare n q) (hi : i < n) (hj : j < n)
    (h0 : entryOf q i j = 0) (b : ℕ → ℝ) :
    quboEnergy n (entryOf (q.put i j v)) b = quboEnergy n (entryOf q) b + v * b i * b j := by
  have e : ∀ x ∈ range n, ∀ y ∈ range n, entryOf (q.put i j v) x y * b x * b y =
      entryOf q x y * b x * b y + if x = i then (if y = j then v * b i * b j else 0) else 0 := by
    intro x _ y _
    rw [put_entry n q i j v h hi hj]
    by_cases hx : x = i
    · by_cases hy : y = j
      · subst hx hy; simp [h0]
      · simp [hx, hy]
    · simp [hx]
  rw [quboEnergy, quboEnergy, Finset.sum_congr rfl (fun x hx => Finset.sum_congr rfl (fun y hy => e x hx y hy))]
  simp only [Finset.sum_add_distrib, Finset.sum_ite_eq', Finset.sum_ite_irrel, Finset.sum_const_zero, Finset.mem_range, hi,
    hj, if_true]

theorem prodOf_dedup {V : Type} [DecidableEq V] (ρ : V → ℝ) (h : BitValues ρ) :
    ∀ vs : List V, prodOf ρ vs = prodOf ρ vs.dedup
  | [] => rfl
  | v :: vs => by
    have ih := prodOf_dedup ρ h vs
    by_cases hv : v ∈ vs
    · rw [List.dedup_cons_of_mem hv, ← ih]
      have : prodOf ρ vs = ρ v * prodOf ρ (vs.erase v) := by
        rw [prodOf, ((List.perm_cons_erase hv).map ρ).prod_eq]; simp [prodOf]
      rw [prodOf, List.map_cons, List.prod_cons]
      change ρ v * prodOf ρ vs = _
      rw [this, ← mul_assoc]
      rcases h v with h | h <;> rw [h] <;> ring
    · rw [List.dedup_cons_of_notMem hv]
      rw [prodOf, List.map_cons, List.prod_cons]
      change ρ v * prodOf ρ vs = _
      rw [ih]; simp [prodOf]

/-- A number, or a product with a coefficient, of one or two different symbols (each to any power); with coefficient 1 it has
two, since `1*x` is a symbol or a power and not a product. -/
def SArg.QuboTerm : SArg ℕ → Prop
  | .num _ => True
  | .mul c vs => vs.dedup.length = 2 ∨ (vs.dedup.length = 1 ∧ c ≠ 1)
  | _ => False

/-- The symbols of a product as a set. -/
def SArg.support : SArg ℕ → Finset ℕ := fun a => a.freeSymbols.toFinset

open Classical in
/-- A product with a coefficient other than 1. -/
def SArg.weighted : SArg ℕ → Bool
  | .mul c _ => decide (c ≠ 1)
  | _ => false

theorem qnFold_ok (n : ℕ) (b : ℕ → ℝ) (hb : BitValues b) : ∀ (args : List (SArg ℕ)) (q : Rows), IsSquare n q →
    (∀ a ∈ args, a.QuboTerm ∧ ∀ v ∈ a.freeSymbols, v < n) →
    (args.filter SArg.weighted).Pairwise (fun x y => x.support ≠ y.support) →
    (∀ i j, i ≤ j → (∃ a ∈ args, a.weighted ∧ a.support = {i, j}) → entryOf q i j = 0) →
    ∃ M, args.foldlM qnArg q = .ok M ∧ IsSquare n M ∧
      quboEnergy n (entryOf M) b = quboEnergy n (entryOf q) b + argsVal b (args.filter SArg.weighted)
  | [], q, hq, _, _, _ => ⟨q, rfl, hq, by simp [argsVal]⟩
  | a :: args, q, hq, ht, hp, h0 => by
    have hta := ht a (by simp)
    have ht' : ∀ x ∈ args, x.QuboTerm ∧ ∀ v ∈ x.freeSymbols, v < n := fun x hx => ht x (by simp [hx])
    rw [List.foldlM_cons]
    by_cases hw : a.weighted = true
    · rw [List.filter_cons_of_pos hw] at hp ⊢
      rw [List.pairwise_cons] at hp
      -- the entry that is written
      obtain ⟨i, j, c, hij, hj, harg, hsup, hval⟩ : ∃ i j c, i ≤ j ∧ j < n ∧ qnArg q a = .ok (q.put i j c) ∧
          a.support = {i, j} ∧ a.val b = c * b i * b j := by
        match a, hta, hw with
        | .mul c vs, hta, hw =>
          have hc : c ≠ 1 := by simpa [SArg.weighted] using hw
          have hval : (SArg.mul c vs).val b = c * prodOf b vs.dedup := by rw [SArg.val, prodOf_dedup b hb]
          have hlt : ∀ v ∈ vs.dedup, v < n := hta.2
          rcases hta.1 with h2 | ⟨h1, -⟩
          · obtain ⟨x, y, hxy⟩ := List.length_eq_two.1 h2
            refine ⟨min x y, max x y, c, min_le_max, ?_, ?_, ?_, ?_⟩
            · exact max_lt (hlt x (by rw [hxy]; simp)) (hlt y (by rw [hxy]; simp))
            · simp [qnArg, SArg.freeSymbols, SArg.argsLen, hxy, hc]
            · simp only [SArg.support, SArg.freeSymbols, hxy]
              ext z
              simp only [List.toFinset_cons, List.toFinset_nil, insert_empty_eq, Finset.mem_insert, Finset.mem_singleton]
              rcases le_total x y with h | h
              · rw [min_eq_left h, max_eq_right h]
              · rw [min_eq_right h, max_eq_left h]; tauto
            · rw [hval, hxy]
              rcases le_total x y with h | h
              · rw [min_eq_left h, max_eq_right h]; simp [prodOf]; ring
              · rw [min_eq_right h, max_eq_left h]; simp [prodOf]; ring
          · obtain ⟨x, hx⟩ := List.length_eq_one_iff.1 h1
            refine ⟨x, x, c, le_rfl, hlt x (by rw [hx]; simp), ?_, ?_, ?_⟩
            · simp [qnArg, SArg.freeSymbols, SArg.argsLen, hx, hc]
            · simp [SArg.support, SArg.freeSymbols, hx]
            · rw [hval, hx]
              rcases hb x with h | h <;> simp [prodOf, h]
      have hz := h0 i j hij ⟨a, by simp, hw, hsup⟩
      have hi : i < n := lt_of_le_of_lt hij hj
      obtain ⟨M, h1, h2, h3⟩ := qnFold_ok n b hb args (q.put i j c) (put_square n q i j c hq) ht' hp.2 (by
        rintro i' j' hij' ⟨x, hx, hxw, hxs⟩
        rw [put_entry n q i j c hq hi hj]
        rw [if_neg, h0 i' j' hij' ⟨x, by simp [hx], hxw, hxs⟩]
        rintro ⟨rfl, rfl⟩
        exact hp.1 x (List.mem_filter.2 ⟨hx, hxw⟩) (hsup.trans hxs.symm))
      refine ⟨M, by rw [harg]; exact h1, h2, ?_⟩
      rw [h3, put_energy n q i j c hq hi hj hz, argsVal, argsVal, List.map_cons, List.sum_cons, hval]
      ring
    · rw [List.filter_cons_of_neg hw] at hp ⊢
      have harg : qnArg q a = .ok q := by
        match a, hta, hw with
        | .num c, _, _ => rfl
        | .mul c vs, hta, hw =>
          have hc : c = 1 := by simpa [SArg.weighted] using hw
          rcases hta.1 with h2 | ⟨-, h1⟩
          · obtain ⟨x, y, hxy⟩ := List.length_eq_two.1 h2
            simp [qnArg, SArg.freeSymbols, SArg.argsLen, hxy, hc]
          · exact absurd hc h1
      rw [harg]
      exact qnFold_ok n b hb args q hq ht' hp (by
        rintro i' j' hij' ⟨x, hx, hxw, hxs⟩
        exact h0 i' j' hij' ⟨x, by simp [hx], hxw, hxs⟩)

theorem foldl_max_le (l : List ℕ) (k : ℕ) : k ≤ l.foldl max k ∧ ∀ x ∈ l, x ≤ l.foldl max k := by
  induction l generalizing k with
  | nil => simp
  | cons a l ih =>
    rw [List.foldl_cons]
    obtain ⟨h1, h2⟩ := ih (max k a)
    refine ⟨(le_max_left _ _).trans h1, fun x hx => ?_⟩
    rcases List.mem_cons.1 hx with rfl | hx
    · exact (le_max_right _ _).trans h1
    · exact h2 x hx

/-- C53. For a sum of numbers and products with one or two symbols, whose products with a coefficient are about different
symbols: `qn_to_qubo` returns a square matrix, large enough for all symbols, whose energy is the sum of the products with a
coefficient other than 1. Products without a coefficient are dropped. -/
theorem C53_energy (args : List (SArg ℕ)) (hne : args.flatMap SArg.freeSymbols ≠ []) (ht : ∀ a ∈ args, a.QuboTerm)
    (hp : (args.filter SArg.weighted).Pairwise (fun x y => x.support ≠ y.support)) :
    ∃ n M, qnToQubo (.add args) = .ok M ∧ M.length = n ∧ (∀ r ∈ M, r.length = n) ∧
      (∀ a ∈ args, ∀ v ∈ a.freeSymbols, v < n) ∧
      ∀ b, BitValues b → quboEnergy n (entryOf M) b = argsVal b (args.filter SArg.weighted) := by
  obtain ⟨n, hn, hlt⟩ : ∃ n, qnSize args = .ok n ∧ ∀ a ∈ args, ∀ v ∈ a.freeSymbols, v < n := by
    match hf : args.flatMap SArg.freeSymbols, hne with
    | v :: vs, _ =>
      refine ⟨_, by rw [qnSize, hf], fun a ha x hx => ?_⟩
      have : x ∈ v :: vs := by rw [← hf]; exact List.mem_flatMap.2 ⟨a, ha, hx⟩
      have := (foldl_max_le (v :: vs) 0).2 x this
      omega
  have hsq : IsSquare n (List.replicate n (List.replicate n 0)) :=
    ⟨by simp, fun r hr => by rw [List.eq_of_mem_replicate hr]; simp⟩
  have hz : ∀ i j, entryOf (List.replicate n (List.replicate n 0)) i j = 0 := by
    intro i j
    simp only [entryOf, List.getD_eq_getElem?_getD, List.getElem?_replicate]
    split_ifs <;> simp [List.getElem?_replicate]
    split_ifs <;> simp
  have key := fun b hb => qnFold_ok n b hb args _ hsq (fun a ha => ⟨ht a ha, hlt a ha⟩) hp (fun i j _ _ => hz i j)
  obtain ⟨M, h1, h2, -⟩ := key (fun _ => 0) (fun _ => .inl rfl)
  refine ⟨n, M, by simp only [qnToQubo, hn, bind, Except.bind]; exact h1, h2.1, h2.2, hlt, fun b hb => ?_⟩
  obtain ⟨M', h1', -, h3⟩ := key b hb
  rw [h1] at h1'
  cases h1'
  rw [h3]
  have : quboEnergy n (entryOf (List.replicate n (List.replicate n 0))) b = 0 := by
    simp [quboEnergy, hz]
  rw [this, zero_add]

/-- C53, partial: if in addition no product has coefficient 1, the energy is the sum up to its constants. Missing: sums with a
plain symbol (`C53_symbol_refuted`), a plain power (`C53_power_refuted`), a product without a coefficient
(`C53_unit_product_refuted`), or with two products of the same symbols. -/
theorem C53_partial (args : List (SArg ℕ)) (hne : args.flatMap SArg.freeSymbols ≠ []) (ht : ∀ a ∈ args, a.QuboTerm)
    (hu : ∀ a ∈ args, ∀ vs, a ≠ .mul 1 vs)
    (hp : (args.filter SArg.weighted).Pairwise (fun x y => x.support ≠ y.support)) :
    ∃ n M, qnToQubo (.add args) = .ok M ∧ M.length = n ∧ (∀ r ∈ M, r.length = n) ∧
      (∀ a ∈ args, ∀ v ∈ a.freeSymbols, v < n) ∧
      ∀ b, BitValues b → quboEnergy n (entryOf M) b = argsVal b args - argsVal (fun _ => 0) args := by
  obtain ⟨n, M, h1, h2, h3, h4, h5⟩ := C53_energy args hne ht hp
  refine ⟨n, M, h1, h2, h3, h4, fun b hb => ?_⟩
  rw [h5 b hb]
  clear h1 h2 h3 h4 h5 hne hp
  induction args with
  | nil => simp [argsVal]
  | cons a args ih =>
    have ih' := ih (fun x hx => ht x (by simp [hx])) (fun x hx => hu x (by simp [hx]))
    have hta := ht a (by simp)
    have hua := hu a (by simp)
    simp only [argsVal, List.map_cons, List.sum_cons] at ih' ⊢
    match a, hta, hua with
    | .num c, _, _ =>
      rw [List.filter_cons_of_neg (by simp [SArg.weighted]), ih']
      simp only [SArg.val]; ring
    | .mul c vs, hta, hua =>
      have hc : c ≠ 1 := by rintro rfl; exact hua vs rfl
      rw [List.filter_cons_of_pos (by simp [SArg.weighted, hc]), List.map_cons, List.sum_cons, ih']
      have : prodOf (fun _ : ℕ => (0 : ℝ)) vs = 0 := by
        have hv : vs ≠ [] := by
          rintro rfl
          rcases hta with h | ⟨h, -⟩ <;> simp at h
        obtain ⟨v, vs', rfl⟩ := List.exists_cons_of_ne_nil hv
        simp [prodOf]
      simp only [SArg.val, this]; ring

/-- C53 is false of the code: a product without a coefficient is dropped. `2*q0 + q0*q1` gives a matrix with energy 2 at
(1, 1), where the sum is 3. -/
theorem C53_unit_product_refuted : ∃ n M, qnToQubo (.add [.mul 2 [0], .mul 1 [0, 1]]) = .ok M ∧ M.length = n ∧ 2 ≤ n ∧
    quboEnergy n (entryOf M) (fun _ => 1) = 2 ∧ argsVal (fun _ => 1) [SArg.mul 2 [0], .mul 1 [0, 1]] = 3 := by
  have d1 : ([0] : List ℕ).dedup = [0] := by decide
  have d2 : ([0, 1] : List ℕ).dedup = [0, 1] := by decide
  obtain ⟨n, M, h1, h2, h3, h4, h5⟩ := C53_energy [.mul 2 [0], .mul 1 [0, 1]] (by simp [SArg.freeSymbols, d1, d2])
    (by simp [SArg.QuboTerm, d1, d2]) (by simp [SArg.weighted])
  refine ⟨n, M, h1, h2, h4 _ (List.mem_cons_of_mem _ (List.mem_cons_self)) 1 (by simp [SArg.freeSymbols, d2]), ?_, ?_⟩
  · rw [h5 _ (fun _ => .inr rfl)]
    simp [SArg.weighted, argsVal, SArg.val, prodOf]
  · norm_num [argsVal, SArg.val, prodOf]

/-- C53 is false of the code: of two products with the same symbols the last one overwrites the other. `2*q0 + 3*q0**2` gives
a matrix with energy 3 at 1, where the sum is 5. -/
theorem C53_overwrite_refuted : qnToQubo (.add [.mul 2 [0], .mul 3 [0, 0]]) = .ok [[3]] ∧
    quboEnergy 1 (entryOf [[3]]) (fun _ => 1) = 3 ∧ argsVal (fun _ => 1) [SArg.mul 2 [0], .mul 3 [0, 0]] = 5 := by
  have d1 : ([0] : List ℕ).dedup = [0] := by decide
  have d2 : ([0, 0] : List ℕ).dedup = [0] := by decide
  have hs : qnSize [.mul 2 [0], .mul 3 [0, 0]] = .ok 1 := by
    simp [qnSize, SArg.freeSymbols, d1, d2]
  refine ⟨?_, ?_, ?_⟩
  · simp only [qnToQubo, hs, bind, Except.bind, List.foldlM_cons, List.foldlM_nil]
    have e1 : ∀ q, qnArg q (.mul 2 [0]) = .ok (q.put 0 0 2) := by
      intro q; simp [qnArg, SArg.freeSymbols, SArg.argsLen, d1]
    have e2 : ∀ q, qnArg q (.mul 3 [0, 0]) = .ok (q.put 0 0 3) := by
      intro q; simp [qnArg, SArg.freeSymbols, SArg.argsLen, d2]
    simp only [e1, e2]
    rfl
  · norm_num [quboEnergy, entryOf, Finset.sum_range_succ]
  · norm_num [argsVal, SArg.val, prodOf]

theorem qnArg_ok (q : Rows) (a : SArg ℕ) (h : a.QuboTerm) : ∃ q', qnArg q a = .ok q' := by
  match a, h with
  | .num c, _ => exact ⟨q, rfl⟩
  | .mul c vs, h =>
    rcases h with h2 | ⟨h1, hc⟩
    · obtain ⟨x, y, hxy⟩ := List.length_eq_two.1 h2
      by_cases hc : c = 1
      · exact ⟨q, by simp [qnArg, SArg.freeSymbols, SArg.argsLen, hxy, hc]⟩
      · exact ⟨_, by simp [qnArg, SArg.freeSymbols, SArg.argsLen, hxy, hc]; rfl⟩
    · obtain ⟨x, hx⟩ := List.length_eq_one_iff.1 h1
      exact ⟨_, by simp [qnArg, SArg.freeSymbols, SArg.argsLen, hx, hc]; rfl⟩

theorem qnFold_error (e : PyErr) (a : SArg ℕ) (ha : ∀ q, qnArg q a = .error e) (post : List (SArg ℕ)) :
    ∀ (pre : List (SArg ℕ)) (q : Rows), (∀ x ∈ pre, x.QuboTerm) → (pre ++ a :: post).foldlM qnArg q = .error e
  | [], q, _ => by rw [List.nil_append, List.foldlM_cons, ha]; rfl
  | x :: pre, q, h => by
    obtain ⟨q', hq'⟩ := qnArg_ok q x (h x (by simp))
    rw [List.cons_append, List.foldlM_cons, hq']
    exact qnFold_error e a ha post pre q' (fun y hy => h y (by simp [hy]))

theorem qnToQubo_error (e : PyErr) (a : SArg ℕ) (ha : ∀ q, qnArg q a = .error e) (hs : a.freeSymbols ≠ [])
    (pre post : List (SArg ℕ)) (hpre : ∀ x ∈ pre, x.QuboTerm) : qnToQubo (.add (pre ++ a :: post)) = .error e := by
  obtain ⟨n, hn⟩ : ∃ n, qnSize (pre ++ a :: post) = .ok n := by
    rw [qnSize]
    match hf : (pre ++ a :: post).flatMap SArg.freeSymbols with
    | [] =>
      rw [List.flatMap_append, List.flatMap_cons] at hf
      simp only [List.append_eq_nil_iff] at hf
      exact absurd hf.2.1 hs
    | v :: vs => exact ⟨_, rfl⟩
  simp only [qnToQubo, hn, bind, Except.bind]
  exact qnFold_error e a ha post pre _ hpre

/-- C53 is false of the code: a plain symbol raises ValueError, after terms of the right form. -/
theorem C53_symbol_refuted (pre post : List (SArg ℕ)) (hpre : ∀ a ∈ pre, a.QuboTerm) (v : ℕ) :
    qnToQubo (.add (pre ++ .sym v :: post)) = .error .valueError :=
  qnToQubo_error _ _ (fun _ => rfl) (by simp [SArg.freeSymbols]) pre post hpre

/-- C53 is false of the code: a plain power raises AssertionError, after terms of the right form. -/
theorem C53_power_refuted (pre post : List (SArg ℕ)) (hpre : ∀ a ∈ pre, a.QuboTerm) (v k : ℕ) :
    qnToQubo (.add (pre ++ .pow v k :: post)) = .error .assertionError :=
  qnToQubo_error _ _ (fun _ => rfl) (by simp [SArg.freeSymbols]) pre post hpre

/-- C53. More than two symbols in a product raise AssertionError, after terms of the right form; so does anything that is not
a sum. -/
theorem C53_degree (pre post : List (SArg ℕ)) (hpre : ∀ a ∈ pre, a.QuboTerm) (c : ℝ) (vs : List ℕ)
    (h : 2 < vs.dedup.length) (a : SArg ℕ) :
    qnToQubo (.add (pre ++ .mul c vs :: post)) = .error .assertionError ∧ qnToQubo (.single a) = .error .assertionError := by
  refine ⟨qnToQubo_error _ _ (fun q => ?_) ?_ pre post hpre, rfl⟩
  · match hd : vs.dedup, h with
    | x :: y :: z :: l, _ => simp [qnArg, SArg.freeSymbols, hd]
  · simp only [SArg.freeSymbols]
    intro h'
    rw [h'] at h; simp at h

/-- `3*q0 - 2*q0*q2 + 7`. -/
example : ∃ n M, qnToQubo (.add [.mul 3 [0], .mul (-2) [0, 2], .num 7]) = .ok M ∧
    quboEnergy n (entryOf M) (fun _ => 1) = 1 := by
  have d1 : ([0] : List ℕ).dedup = [0] := by decide
  have d2 : ([0, 2] : List ℕ).dedup = [0, 2] := by decide
  have hc : ((-2 : ℝ) ≠ 1) := by norm_num
  have hc3 : ((3 : ℝ) ≠ 1) := by norm_num
  obtain ⟨n, M, h1, h2, h3, h4, h5⟩ := C53_partial [.mul 3 [0], .mul (-2) [0, 2], .num 7] (by simp [SArg.freeSymbols, d1, d2])
    (by simp [SArg.QuboTerm, d1, d2]) (by
      intro a ha vs h
      simp only [List.mem_cons, List.not_mem_nil, or_false] at ha
      rcases ha with rfl | rfl | rfl
      · rw [SArg.mul.injEq] at h; exact hc3 h.1
      · rw [SArg.mul.injEq] at h; exact hc h.1
      · cases h)
    (by
      simp only [SArg.weighted, List.filter, hc, hc3, ne_eq, not_false_eq_true, decide_true, SArg.support, SArg.freeSymbols, d1,
        d2, List.pairwise_cons, List.mem_cons, List.not_mem_nil, or_false, forall_eq, and_true, List.Pairwise.nil,
        false_imp_iff, implies_true]
      decide)
  refine ⟨n, M, h1, ?_⟩
  rw [h5 _ (fun _ => .inr rfl)]
  norm_num [argsVal, SArg.val, prodOf]

end

end Blueqat
