import Verif.SymExpr
import Verif.Spec.SymExpr
import Mathlib.Data.Finset.Union
import Mathlib.Tactic.Ring
import Mathlib.Tactic.Linarith

/-!
# Lemmas on `nbody_separation`
-/

set_option linter.unusedSimpArgs false
set_option linter.unusedVariables false

namespace Blueqat

open Spec

noncomputable section

/-- A supplementary variable `v` standing for `v1*v2`. -/
structure NbDef where
  v1 : String
  v2 : String
  v : String

/-- `s` is a symbol of the expression (`O`) or a supplementary variable in use. -/
def Known (O : Set String) (ds : List NbDef) (s : String) : Prop := s ∈ O ∨ s ∈ ds.map NbDef.v

/-- The newest definition first: each one uses known symbols and introduces an unknown one. -/
def DefsWF (O : Set String) : List NbDef → Prop
  | [] => True
  | d :: ds => Known O ds d.v1 ∧ Known O ds d.v2 ∧ ¬ Known O ds d.v ∧ DefsWF O ds

/-- The symbols of the expression that a symbol stands for. -/
def supp : List NbDef → String → Finset String
  | [], s => {s}
  | d :: ds, s => if s = d.v then supp ds d.v1 ∪ supp ds d.v2 else supp ds s

/-- The definitions hold. -/
def Sat (ds : List NbDef) (ρ : String → ℝ) : Prop := ∀ d ∈ ds, ρ d.v = ρ d.v1 * ρ d.v2

/-- The extension of an assignment to the supplementary variables. -/
def extend : List NbDef → (String → ℝ) → String → ℝ
  | [], ρ, s => ρ s
  | d :: ds, ρ, s => if s = d.v then extend ds ρ d.v1 * extend ds ρ d.v2 else extend ds ρ s

theorem supp_nonempty : ∀ (ds : List NbDef) (s : String), (supp ds s).Nonempty
  | [], s => ⟨s, by simp [supp]⟩
  | d :: ds, s => by
    rw [supp]
    split_ifs
    · exact (supp_nonempty ds d.v1).mono Finset.subset_union_left
    · exact supp_nonempty ds s

theorem known_cons (O : Set String) (d : NbDef) (ds : List NbDef) (s : String) (h : Known O ds s) : Known O (d :: ds) s := by
  rcases h with h | h
  · exact .inl h
  · exact .inr (by simp only [List.map_cons, List.mem_cons]; exact .inr h)

theorem supp_cons (O : Set String) (d : NbDef) (ds : List NbDef) (hd : ¬ Known O ds d.v) (s : String) (h : Known O ds s) :
    supp (d :: ds) s = supp ds s := by
  rw [supp, if_neg]
  rintro rfl; exact hd h

theorem defs_known (O : Set String) : ∀ (ds : List NbDef), DefsWF O ds → ∀ d ∈ ds, Known O ds d.v1 ∧ Known O ds d.v2
  | [], _, d, h => by simp at h
  | e :: ds, hw, d, h => by
    rcases List.mem_cons.1 h with rfl | h
    · exact ⟨known_cons _ _ _ _ hw.1, known_cons _ _ _ _ hw.2.1⟩
    · have := defs_known O ds hw.2.2.2 d h
      exact ⟨known_cons _ _ _ _ this.1, known_cons _ _ _ _ this.2⟩

theorem mem_known (O : Set String) (ds : List NbDef) (d : NbDef) (h : d ∈ ds) : Known O ds d.v :=
  .inr (List.mem_map_of_mem h)

theorem supp_def (O : Set String) : ∀ (ds : List NbDef), DefsWF O ds → ∀ d ∈ ds,
    supp ds d.v = supp ds d.v1 ∪ supp ds d.v2
  | [], _, d, h => by simp at h
  | e :: ds, hw, d, h => by
    rcases List.mem_cons.1 h with rfl | h
    · rw [supp_cons O d ds hw.2.2.1 _ hw.1, supp_cons O d ds hw.2.2.1 _ hw.2.1, supp, if_pos rfl]
    · have k := defs_known O ds hw.2.2.2 d h
      rw [supp_cons O e ds hw.2.2.1 _ (mem_known O ds d h), supp_cons O e ds hw.2.2.1 _ k.1,
        supp_cons O e ds hw.2.2.1 _ k.2, supp_def O ds hw.2.2.2 d h]

/-- No definition is about itself. -/
theorem def_ne (O : Set String) : ∀ (ds : List NbDef), DefsWF O ds → ∀ d ∈ ds, d.v ≠ d.v1 ∧ d.v ≠ d.v2
  | [], _, d, h => by simp at h
  | e :: ds, hw, d, h => by
    rcases List.mem_cons.1 h with rfl | h
    · exact ⟨fun h => hw.2.2.1 (h ▸ hw.1), fun h => hw.2.2.1 (h ▸ hw.2.1)⟩
    · exact def_ne O ds hw.2.2.2 d h

/-! ## The extension of an assignment -/

theorem extend_known (O : Set String) (d : NbDef) (ds : List NbDef) (hd : ¬ Known O ds d.v) (ρ : String → ℝ) (s : String)
    (h : Known O ds s) : extend (d :: ds) ρ s = extend ds ρ s := by
  rw [extend, if_neg]
  rintro rfl; exact hd h

theorem extend_sat (O : Set String) : ∀ (ds : List NbDef), DefsWF O ds → ∀ ρ, Sat ds (extend ds ρ)
  | [], _, ρ => by intro d h; simp at h
  | e :: ds, hw, ρ => by
    intro d h
    rcases List.mem_cons.1 h with rfl | h
    · rw [extend_known O d ds hw.2.2.1 ρ _ hw.1, extend_known O d ds hw.2.2.1 ρ _ hw.2.1, extend, if_pos rfl]
    · have k := defs_known O ds hw.2.2.2 d h
      rw [extend_known O e ds hw.2.2.1 ρ _ (mem_known O ds d h), extend_known O e ds hw.2.2.1 ρ _ k.1,
        extend_known O e ds hw.2.2.1 ρ _ k.2]
      exact extend_sat O ds hw.2.2.2 ρ d h

theorem extend_bits (ds : List NbDef) (ρ : String → ℝ) (h : BitValues ρ) : BitValues (extend ds ρ) := by
  induction ds with
  | nil => exact h
  | cons d ds ih =>
    intro s
    rw [extend]
    split_ifs
    · rcases ih d.v1 with h1 | h1 <;> rcases ih d.v2 with h2 | h2 <;> simp [h1, h2]
    · exact ih s

theorem extend_outside : ∀ (ds : List NbDef) (ρ : String → ℝ) (s : String), s ∉ ds.map NbDef.v → extend ds ρ s = ρ s
  | [], ρ, s, _ => rfl
  | d :: ds, ρ, s, h => by
    simp only [List.map_cons, List.mem_cons, not_or] at h
    rw [extend, if_neg h.1]
    exact extend_outside ds ρ s h.2

theorem extend_self : ∀ (ds : List NbDef) (ρ : String → ℝ), Sat ds ρ → extend ds ρ = ρ
  | [], ρ, _ => rfl
  | d :: ds, ρ, h => by
    have ih := extend_self ds ρ (fun e he => h e (by simp [he]))
    funext s
    rw [extend, ih]
    split_ifs with hs
    · rw [hs]; exact (h d (by simp)).symm
    · rfl

theorem extend_congr (O : Set String) : ∀ (ds : List NbDef) (S : Set String) (ρ ρ' : String → ℝ), DefsWF O ds →
    (∀ s, s ∉ ds.map NbDef.v → s ∉ S → ρ s = ρ' s) → (∀ s ∈ S, ¬ Known O ds s) →
    ∀ s, s ∉ S → extend ds ρ s = extend ds ρ' s
  | [], S, ρ, ρ', _, h, _, s, hs => h s (by simp) hs
  | d :: ds, S, ρ, ρ', hw, h, hS, s, hs => by
    have ih := extend_congr O ds (S ∪ {d.v}) ρ ρ' hw.2.2.2 (fun t ht htS => by
        simp only [Set.mem_union, Set.mem_singleton_iff, not_or] at htS
        refine h t ?_ htS.1
        simp only [List.map_cons, List.mem_cons, not_or]
        exact ⟨htS.2, ht⟩)
      (fun t ht hk => by
        rcases ht with ht | ht
        · exact hS t ht (known_cons O d ds t hk)
        · rw [Set.mem_singleton_iff] at ht
          rw [ht] at hk
          exact hw.2.2.1 hk)
    have hv1 : d.v1 ∉ S ∪ {d.v} := by
      rintro (h1 | h1)
      · exact hS _ h1 (known_cons O d ds _ hw.1)
      · rw [Set.mem_singleton_iff] at h1
        exact hw.2.2.1 (h1 ▸ hw.1)
    have hv2 : d.v2 ∉ S ∪ {d.v} := by
      rintro (h1 | h1)
      · exact hS _ h1 (known_cons O d ds _ hw.2.1)
      · rw [Set.mem_singleton_iff] at h1
        exact hw.2.2.1 (h1 ▸ hw.2.1)
    rw [extend, extend]
    split_ifs with hsv
    · rw [ih _ hv1, ih _ hv2]
    · exact ih s (by simp only [Set.mem_union, Set.mem_singleton_iff, not_or]; exact ⟨hs, hsv⟩)

/-- Two assignments that satisfy the definitions and agree on the other symbols are equal. -/
theorem sat_unique (O : Set String) (ds : List NbDef) (hw : DefsWF O ds) (ρ ρ' : String → ℝ) (h : Sat ds ρ) (h' : Sat ds ρ')
    (he : ∀ s, s ∉ ds.map NbDef.v → ρ s = ρ' s) : ρ = ρ' := by
  rw [← extend_self ds ρ h, ← extend_self ds ρ' h']
  funext s
  exact extend_congr O ds ∅ ρ ρ' hw (fun s hs _ => he s hs) (by simp) s (by simp)

/-! ## The penalty -/

/-- The value of a sum of products. -/
def monosVal (ρ : String → ℝ) (ms : List Mono) : ℝ := (ms.map (fun m => m.c * prodOf ρ m.vs)).sum

theorem monosVal_append (ρ : String → ℝ) (a b : List Mono) : monosVal ρ (a ++ b) = monosVal ρ a + monosVal ρ b := by
  simp [monosVal]

theorem penalty_val (ρ : String → ℝ) (v1 v2 v : String) : monosVal ρ (nbodyPenalty v1 v2 v) =
    3 * ρ v + ρ v1 * ρ v2 - 2 * ρ v1 * ρ v - 2 * ρ v2 * ρ v := by
  simp [monosVal, nbodyPenalty, prodOf]; ring

theorem penalty_nonneg (ρ : String → ℝ) (h : BitValues ρ) (v1 v2 v : String) :
    0 ≤ monosVal ρ (nbodyPenalty v1 v2 v) := by
  rw [penalty_val]
  rcases h v1 with h1 | h1 <;> rcases h v2 with h2 | h2 <;> rcases h v with h3 | h3 <;> rw [h1, h2, h3] <;> norm_num

theorem penalty_zero (ρ : String → ℝ) (h : BitValues ρ) (v1 v2 v : String) :
    monosVal ρ (nbodyPenalty v1 v2 v) = 0 ↔ ρ v = ρ v1 * ρ v2 := by
  rw [penalty_val]
  rcases h v1 with h1 | h1 <;> rcases h v2 with h2 | h2 <;> rcases h v with h3 | h3 <;> rw [h1, h2, h3] <;> norm_num

/-- The constraints of a list of definitions. -/
def penalties : List NbDef → List Mono
  | [] => []
  | d :: ds => penalties ds ++ nbodyPenalty d.v1 d.v2 d.v

theorem penalties_nonneg (ρ : String → ℝ) (h : BitValues ρ) : ∀ ds, 0 ≤ monosVal ρ (penalties ds)
  | [] => by simp [penalties, monosVal]
  | d :: ds => by
    rw [penalties, monosVal_append]
    exact add_nonneg (penalties_nonneg ρ h ds) (penalty_nonneg ρ h _ _ _)

theorem penalties_zero (ρ : String → ℝ) (h : BitValues ρ) : ∀ ds, monosVal ρ (penalties ds) = 0 ↔ Sat ds ρ
  | [] => by simp [penalties, monosVal, Sat]
  | d :: ds => by
    rw [penalties, monosVal_append, add_eq_zero_iff_of_nonneg (penalties_nonneg ρ h ds) (penalty_nonneg ρ h _ _ _),
      penalties_zero ρ h ds, penalty_zero ρ h]
    simp only [Sat, List.mem_cons, forall_eq_or_imp]
    exact and_comm

theorem penalties_degree : ∀ ds, ∀ m ∈ penalties ds, m.vs.length ≤ 2
  | [], m, h => by simp [penalties] at h
  | d :: ds, m, h => by
    rw [penalties, List.mem_append] at h
    rcases h with h | h
    · exact penalties_degree ds m h
    · simp only [nbodyPenalty, List.mem_cons, List.not_mem_nil, or_false] at h
      rcases h with rfl | rfl | rfl | rfl <;> simp

/-! ## The state and the product at hand -/

/-- The state records the definitions `ds`. -/
structure NbInv (O : Set String) (qs : List String) (s : NbState) (ds : List NbDef) : Prop where
  used : s.used ≤ qs.length
  names : ds.map NbDef.v = (qs.take s.used).reverse
  cons : s.constraints = penalties ds
  map : ∀ k v, s.mapping.get k = some v → ⟨k.1, k.2, v⟩ ∈ ds
  mem : ∀ k v, (k, v) ∈ s.mapping → ⟨k.1, k.2, v⟩ ∈ ds
  full : ∀ d ∈ ds, ((d.v1, d.v2), d.v) ∈ s.mapping
  wf : DefsWF O ds

/-- The symbols of the product are known, different, and stand for disjoint sets of symbols. -/
structure ArgInv (O : Set String) (ds : List NbDef) (vs : List String) : Prop where
  nodup : vs.Nodup
  known : ∀ s ∈ vs, Known O ds s
  disj : ∀ a ∈ vs, ∀ b ∈ vs, a ≠ b → Disjoint (supp ds a) (supp ds b)

theorem argInv_cons (O : Set String) (d : NbDef) (ds : List NbDef) (hd : ¬ Known O ds d.v) (vs : List String)
    (h : ArgInv O ds vs) : ArgInv O (d :: ds) vs := by
  refine ⟨h.nodup, fun s hs => known_cons O d ds s (h.known s hs), fun a ha b hb hab => ?_⟩
  rw [supp_cons O d ds hd a (h.known a ha), supp_cons O d ds hd b (h.known b hb)]
  exact h.disj a ha b hb hab

theorem prodOf_subst (ρ : String → ℝ) (vs : List String) (v1 v2 v : String) (h1 : v1 ∈ vs) (h2 : v2 ∈ vs) (hne : v1 ≠ v2)
    (hv : ρ v = ρ v1 * ρ v2) : prodOf ρ (substProd vs v1 v2 v) = prodOf ρ vs := by
  rw [substProd, if_pos ⟨h1, h2⟩]
  have h2' : v2 ∈ vs.erase v1 := (List.mem_erase_of_ne (Ne.symm hne)).2 h2
  have p1 := (List.perm_cons_erase h1).map ρ
  have p2 := (List.perm_cons_erase h2').map ρ
  rw [prodOf, prodOf, p1.prod_eq, List.map_cons, List.map_cons, List.prod_cons, List.prod_cons, p2.prod_eq, List.map_cons,
    List.prod_cons, hv]
  ring

theorem argInv_subst (O : Set String) (ds : List NbDef) (hw : DefsWF O ds) (vs : List String) (v1 v2 v : String)
    (h : ArgInv O ds vs) (h1 : v1 ∈ vs) (h2 : v2 ∈ vs) (hne : v1 ≠ v2) (hd : ⟨v1, v2, v⟩ ∈ ds) :
    ArgInv O ds (substProd vs v1 v2 v) ∧ (substProd vs v1 v2 v).length + 1 = vs.length ∧
    ∀ w ∈ vs, w ≠ v1 → w ≠ v2 → w ∈ substProd vs v1 v2 v := by
  rw [substProd, if_pos ⟨h1, h2⟩]
  have h2' : v2 ∈ vs.erase v1 := (List.mem_erase_of_ne (Ne.symm hne)).2 h2
  have hrest : ∀ w, w ∈ (vs.erase v1).erase v2 ↔ w ≠ v2 ∧ w ≠ v1 ∧ w ∈ vs := by
    intro w
    rw [(h.nodup.erase v1).mem_erase_iff, h.nodup.mem_erase_iff]
  have hs := supp_def O ds hw _ hd
  have hn := def_ne O ds hw _ hd
  simp only at hs hn
  have hv : v ∉ vs := by
    intro hv
    have := h.disj v hv v1 h1 hn.1
    rw [hs, Finset.disjoint_union_left] at this
    obtain ⟨a, ha⟩ := supp_nonempty ds v1
    exact (Finset.disjoint_left.1 this.1) ha ha
  refine ⟨⟨?_, ?_, ?_⟩, ?_, ?_⟩
  · refine List.nodup_cons.2 ⟨fun hh => hv ((hrest v).1 hh).2.2, (h.nodup.erase v1).erase v2⟩
  · intro s hs'
    rcases List.mem_cons.1 hs' with rfl | hs'
    · exact mem_known O ds _ hd
    · exact h.known s ((hrest s).1 hs').2.2
  · have key : ∀ b ∈ (vs.erase v1).erase v2, Disjoint (supp ds v) (supp ds b) := by
      intro b hb
      obtain ⟨hb2, hb1, hb⟩ := (hrest b).1 hb
      rw [hs, Finset.disjoint_union_left]
      exact ⟨h.disj _ h1 _ hb (Ne.symm hb1), h.disj _ h2 _ hb (Ne.symm hb2)⟩
    intro a ha b hb hab
    rcases List.mem_cons.1 ha with ha | ha <;> rcases List.mem_cons.1 hb with hb | hb
    · exact absurd (ha.trans hb.symm) hab
    · rw [ha]; exact key b hb
    · rw [hb]; exact (key a ha).symm
    · exact h.disj a ((hrest a).1 ha).2.2 b ((hrest b).1 hb).2.2 hab
  · rw [List.length_cons, List.length_erase_of_mem h2', List.length_erase_of_mem h1]
    have l1 : 0 < vs.length := List.length_pos_of_mem h1
    have l2 : 0 < (vs.erase v1).length := List.length_pos_of_mem h2'
    rw [List.length_erase_of_mem h1] at l2
    omega
  · intro w hw' hw1 hw2
    exact List.mem_cons.2 (.inr ((hrest w).2 ⟨hw2, hw1, hw'⟩))

/-- What a step, a pass or the whole loop achieves. -/
def NbGood (O : Set String) (qs : List String) (s : NbState) (ds : List NbDef) (vs : List String) (s' : NbState)
    (vs' : List String) : Prop :=
  ∃ ds', ds <:+ ds' ∧ NbInv O qs s' ds' ∧ ArgInv O ds' vs' ∧ (∀ ρ, Sat ds' ρ → prodOf ρ vs' = prodOf ρ vs) ∧
    s'.used + vs'.length ≤ s.used + vs.length

theorem nbodyPair_ok (O : Set String) (qs : List String) (hq : qs.Nodup) (hO : ∀ v ∈ qs, v ∉ O) (s : NbState)
    (ds : List NbDef) (vs : List String) (hi : NbInv O qs s ds) (ha : ArgInv O ds vs) (v1 v2 : String)
    (h1 : v1 ∈ vs) (h2 : v2 ∈ vs) (hne : v1 ≠ v2) :
    (∃ s' vs', nbodyPair qs (s, vs) (v1, v2) = .ok (s', vs') ∧ NbGood O qs s ds vs s' vs' ∧ vs'.length + 1 = vs.length ∧
      ∀ w ∈ vs, w ≠ v1 → w ≠ v2 → w ∈ vs') ∨
    (nbodyPair qs (s, vs) (v1, v2) = .error .indexError ∧ qs.length ≤ s.used) := by
  cases hg : s.mapping.get (v1, v2) with
  | some v =>
    left
    have hd := hi.map _ _ hg
    obtain ⟨a1, a2, a3⟩ := argInv_subst O ds hi.wf vs v1 v2 v ha h1 h2 hne hd
    refine ⟨s, substProd vs v1 v2 v, by simp only [nbodyPair, hg], ⟨ds, List.suffix_refl _, hi, a1, ?_, by omega⟩, a2, a3⟩
    intro ρ hρ
    exact prodOf_subst ρ vs v1 v2 v h1 h2 hne (hρ _ hd)
  | none =>
    by_cases hu : s.used < qs.length
    · left
      have hqv : qs[s.used]? = some qs[s.used] := List.getElem?_eq_getElem hu
      have hnew : ¬ Known O ds qs[s.used] := by
        rintro (h | h)
        · exact hO _ (List.getElem_mem hu) h
        · rw [hi.names, List.mem_reverse, List.mem_take_iff_getElem] at h
          obtain ⟨i, hil, hie⟩ := h
          have := (List.Nodup.getElem_inj_iff hq).1 hie
          omega
      have hw : DefsWF O (⟨v1, v2, qs[s.used]⟩ :: ds) := ⟨ha.known _ h1, ha.known _ h2, hnew, hi.wf⟩
      have hi' : NbInv O qs ⟨s.mapping.set (v1, v2) qs[s.used], s.constraints ++ nbodyPenalty v1 v2 qs[s.used], s.used + 1⟩
          (⟨v1, v2, qs[s.used]⟩ :: ds) := by
        refine ⟨hu, ?_, ?_, ?_, ?_, ?_, hw⟩
        · rw [List.map_cons, hi.names, List.take_succ_eq_append_getElem hu, List.reverse_append]
          rfl
        · rw [penalties, hi.cons]
        · intro k v hk
          rw [PyDict.get_set] at hk
          split_ifs at hk with hkk
          · cases hk; rw [hkk]; simp
          · exact List.mem_cons.2 (.inr (hi.map k v hk))
        · intro k v hk
          have : ∀ (d : PyDict (String × String) String), d.get (v1, v2) = none →
              (k, v) ∈ d.set (v1, v2) qs[s.used] → (k, v) ∈ d ∨ (k = (v1, v2) ∧ v = qs[s.used]) := by
            intro d
            induction d with
            | nil => intro _ h; right; simpa [PyDict.set] using h
            | cons p d ih =>
              intro hn hm
              simp only [PyDict.get] at hn
              split_ifs at hn with hp
              simp only [PyDict.set, if_neg hp, List.mem_cons] at hm
              rcases hm with hm | hm
              · left; rw [hm]; simp
              · rcases ih hn hm with h | h
                · left; simp [h]
                · right; exact h
          rcases this _ hg hk with h | ⟨rfl, rfl⟩
          · exact List.mem_cons.2 (.inr (hi.mem k v h))
          · simp
        · intro d hd
          have : ∀ (m : PyDict (String × String) String), m.get (v1, v2) = none →
              m.set (v1, v2) qs[s.used] = m ++ [((v1, v2), qs[s.used])] := by
            intro m
            induction m with
            | nil => intro _; rfl
            | cons p m ih =>
              intro hn
              simp only [PyDict.get] at hn
              split_ifs at hn with hp
              simp only [PyDict.set, if_neg hp, ih hn, List.cons_append]
          show _ ∈ s.mapping.set (v1, v2) qs[s.used]
          rw [this _ hg, List.mem_append]
          rcases List.mem_cons.1 hd with rfl | hd
          · right; simp
          · left; exact hi.full d hd
      have ha' := argInv_cons O ⟨v1, v2, qs[s.used]⟩ ds hnew vs ha
      obtain ⟨a1, a2, a3⟩ := argInv_subst O _ hw vs v1 v2 qs[s.used] ha' h1 h2 hne (by simp)
      refine ⟨_, substProd vs v1 v2 qs[s.used], by simp only [nbodyPair, hg, hqv],
        ⟨_, List.suffix_cons _ _, hi', a1, ?_, ?_⟩, a2, a3⟩
      · intro ρ hρ
        exact prodOf_subst ρ vs v1 v2 _ h1 h2 hne (hρ ⟨v1, v2, qs[s.used]⟩ (by simp))
      · show s.used + 1 + _ ≤ _
        omega
    · right
      have hqv : qs[s.used]? = none := List.getElem?_eq_none (by omega)
      exact ⟨by simp only [nbodyPair, hg, hqv], by omega⟩

theorem nbGood_trans (O : Set String) (qs : List String) (s s' s'' : NbState) (ds ds' : List NbDef)
    (vs vs' vs'' : List String) (hsub : ds <:+ ds') (hval : ∀ ρ, Sat ds' ρ → prodOf ρ vs' = prodOf ρ vs)
    (hu : s'.used + vs'.length ≤ s.used + vs.length)
    (h : NbGood O qs s' ds' vs' s'' vs'') : NbGood O qs s ds vs s'' vs'' := by
  obtain ⟨ds'', h1, h2, h3, h4, h5⟩ := h
  refine ⟨ds'', hsub.trans h1, h2, h3, fun ρ hρ => ?_, by omega⟩
  rw [h4 ρ hρ, hval ρ (fun d hd => hρ d (h1.subset hd))]

theorem nbodyPass_ok (O : Set String) (qs : List String) (hq : qs.Nodup) (hO : ∀ v ∈ qs, v ∉ O) :
    ∀ (l : List String) (s : NbState) (ds : List NbDef) (vs : List String), l.Nodup → (∀ w ∈ l, w ∈ vs) →
      l.length / 2 + 2 ≤ vs.length ∨ l.length < 2 → NbInv O qs s ds → ArgInv O ds vs →
    (∃ s' vs', (pairUp l).foldlM (nbodyPair qs) (s, vs) = .ok (s', vs') ∧ NbGood O qs s ds vs s' vs' ∧
      vs'.length + l.length / 2 = vs.length) ∨
    ((pairUp l).foldlM (nbodyPair qs) (s, vs) = .error .indexError ∧ qs.length < s.used + (vs.length - 2))
  | [], s, ds, vs, _, _, _, hi, ha => .inl ⟨s, vs, rfl, ⟨ds, List.suffix_refl _, hi, ha, fun _ _ => rfl, le_rfl⟩, rfl⟩
  | [a], s, ds, vs, _, _, _, hi, ha =>
    .inl ⟨s, vs, rfl, ⟨ds, List.suffix_refl _, hi, ha, fun _ _ => rfl, le_rfl⟩, by simp⟩
  | a :: b :: l, s, ds, vs, hn, hm, hl, hi, ha => by
    have hab : a ≠ b := by
      intro h; subst h; simp at hn
    have hlen : (a :: b :: l).length / 2 = l.length / 2 + 1 := by
      rw [List.length_cons, List.length_cons]; omega
    have hl' : l.length / 2 + 3 ≤ vs.length := by
      rcases hl with hl | hl
      · rw [hlen] at hl; omega
      · simp at hl
    rw [pairUp, List.foldlM_cons]
    rcases nbodyPair_ok O qs hq hO s ds vs hi ha a b (hm a (by simp)) (hm b (by simp)) hab with
      ⟨s', vs', h1, ⟨ds', g1, g2, g3, g4, g5⟩, h3, h4⟩ | ⟨h1, h2⟩
    · rw [h1]
      have hn' : l.Nodup := by
        rw [List.nodup_cons, List.nodup_cons] at hn; exact hn.2.2
      have hm' : ∀ w ∈ l, w ∈ vs' := by
        intro w hw
        refine h4 w (hm w (by simp [hw])) ?_ ?_
        · rintro rfl
          rw [List.nodup_cons] at hn
          exact hn.1 (by simp [hw])
        · rintro rfl
          rw [List.nodup_cons, List.nodup_cons] at hn
          exact hn.2.1 hw
      rcases nbodyPass_ok O qs hq hO l s' ds' vs' hn' hm' (.inl (by omega)) g2 g3 with
        ⟨s'', vs'', k1, k2, k3⟩ | ⟨k1, k2⟩
      · exact .inl ⟨s'', vs'', k1, nbGood_trans O qs s s' s'' ds ds' vs vs' vs'' g1 g4 g5 k2, by rw [hlen]; omega⟩
      · exact .inr ⟨k1, by omega⟩
    · rw [h1]
      exact .inr ⟨rfl, by omega⟩

theorem nbodyLoop_ok (O : Set String) (qs : List String) (hq : qs.Nodup) (hO : ∀ v ∈ qs, v ∉ O)
    (ord : ℕ → List String → List String) (hord : ∀ k l, (ord k l).Perm l) :
    ∀ (fuel k : ℕ) (s : NbState) (ds : List NbDef) (vs : List String), vs.length ≤ fuel + 2 →
      NbInv O qs s ds → ArgInv O ds vs →
    (∃ s' vs' k', nbodyLoop qs ord fuel k s vs = .ok (some (s', vs', k')) ∧ NbGood O qs s ds vs s' vs' ∧ vs'.length ≤ 2 ∧
      (2 ≤ vs.length → vs'.length = 2) ∧ (vs.length ≤ 2 → vs' = vs ∧ s' = s)) ∨
    (nbodyLoop qs ord fuel k s vs = .error .indexError ∧ qs.length < s.used + (vs.length - 2)) := by
  intro fuel
  induction fuel with
  | zero =>
    intro k s ds vs hf hi ha
    left
    refine ⟨s, vs, k, ?_, ⟨ds, List.suffix_refl _, hi, ha, fun _ _ => rfl, le_rfl⟩, by omega, by omega, fun _ => ⟨rfl, rfl⟩⟩
    rw [nbodyLoop, ha.nodup.dedup, if_neg (by omega)]
  | succ fuel ih =>
    intro k s ds vs hf hi ha
    by_cases hl : vs.length > 2
    · have hp := hord k vs
      rcases nbodyPass_ok O qs hq hO (ord k vs) s ds vs (hp.nodup_iff.2 ha.nodup) (fun w hw => hp.mem_iff.1 hw)
        (by rw [hp.length_eq]; omega) hi ha with ⟨s', vs', h1, ⟨ds', g1, g2, g3, g4, g5⟩, h3⟩ | ⟨h1, h2⟩
      · rw [hp.length_eq] at h3
        rcases ih (k + 1) s' ds' vs' (by omega) g2 g3 with ⟨s'', vs'', k'', j1, j2, j3, j4, j5⟩ | ⟨j1, j2⟩
        · left
          refine ⟨s'', vs'', k'', ?_, nbGood_trans O qs s s' s'' ds ds' vs vs' vs'' g1 g4 g5 j2, j3,
            fun _ => j4 (by omega), fun h => by omega⟩
          rw [nbodyLoop, ha.nodup.dedup, if_pos hl]
          simp only [h1, bind, Except.bind]
          exact j1
        · right
          refine ⟨?_, by omega⟩
          rw [nbodyLoop, ha.nodup.dedup, if_pos hl]
          simp only [h1, bind, Except.bind]
          exact j1
      · right
        refine ⟨?_, h2⟩
        rw [nbodyLoop, ha.nodup.dedup, if_pos hl]
        simp only [h1, bind, Except.bind]
    · left
      refine ⟨s, vs, k, ?_, ⟨ds, List.suffix_refl _, hi, ha, fun _ _ => rfl, le_rfl⟩, by omega, by omega, fun _ => ⟨rfl, rfl⟩⟩
      rw [nbodyLoop, ha.nodup.dedup, if_neg (by omega)]

/-! ## The loop over the arguments -/

theorem supp_orig (O : Set String) : ∀ (ds : List NbDef), DefsWF O ds → ∀ s ∈ O, supp ds s = {s}
  | [], _, s, _ => rfl
  | d :: ds, hw, s, hs => by
    rw [supp_cons O d ds hw.2.2.1 s (.inl hs)]
    exact supp_orig O ds hw.2.2.2 s hs

theorem argInv_orig (O : Set String) (ds : List NbDef) (hw : DefsWF O ds) (vs : List String) (hn : vs.Nodup)
    (hv : ∀ v ∈ vs, v ∈ O) : ArgInv O ds vs := by
  refine ⟨hn, fun s hs => .inl (hv s hs), fun a ha b hb hab => ?_⟩
  rw [supp_orig O ds hw a (hv a ha), supp_orig O ds hw b (hv b hb)]
  simpa using hab

/-- The value of an argument of a sum. -/
def SArg.val {V : Type} (ρ : V → ℝ) : SArg V → ℝ
  | .sym v => ρ v
  | .num c => c
  | .mul c vs => c * prodOf ρ vs
  | .pow v k => ρ v ^ k

/-- The value of a sum. -/
def argsVal {V : Type} (ρ : V → ℝ) (args : List (SArg V)) : ℝ := (args.map (SArg.val ρ)).sum

/-- The number of symbols of an argument beyond two. -/
def SArg.excess {V : Type} : SArg V → ℕ
  | .mul _ vs => vs.length - 2
  | _ => 0

/-- A multilinear argument with symbols in `O`. -/
def SArg.Multilinear {V : Type} (O : Set V) : SArg V → Prop
  | .sym v => v ∈ O
  | .num _ => True
  | .mul _ vs => vs.Nodup ∧ ∀ v ∈ vs, v ∈ O
  | .pow _ _ => False

theorem nbodyArgs_ok (O : Set String) (qs : List String) (hq : qs.Nodup) (hO : ∀ v ∈ qs, v ∉ O)
    (ord : ℕ → List String → List String) (hord : ∀ k l, (ord k l).Perm l) (fuel : ℕ) :
    ∀ (args : List (SArg String)) (k : ℕ) (s : NbState) (ds : List NbDef) (new : List Mono),
      (∀ a ∈ args, a.Multilinear O ∧ a.excess ≤ fuel) → NbInv O qs s ds →
    (∃ s' extra ds', nbodyArgs qs ord fuel k s new args = .ok (some (s', new ++ extra)) ∧ ds <:+ ds' ∧ NbInv O qs s' ds' ∧
      (∀ ρ, Sat ds' ρ → monosVal ρ extra = argsVal ρ args) ∧ (∀ m ∈ extra, m.vs.Nodup ∧ m.vs.length ≤ 2)) ∨
    (nbodyArgs qs ord fuel k s new args = .error .indexError ∧ qs.length < s.used + (args.map SArg.excess).sum) := by
  intro args
  induction args with
  | nil =>
    intro k s ds new _ hi
    exact .inl ⟨s, [], ds, by simp [nbodyArgs], List.suffix_refl _, hi, by simp [monosVal, argsVal], by simp⟩
  | cons a args ih =>
    intro k s ds new hm hi
    have hm' : ∀ b ∈ args, b.Multilinear O ∧ b.excess ≤ fuel := fun b hb => hm b (by simp [hb])
    have ha := hm a (by simp)
    -- the common part of the three cases
    have step : ∀ (k' : ℕ) (s' : NbState) (ds' : List NbDef) (m : Mono), ds <:+ ds' → NbInv O qs s' ds' →
        (∀ ρ, Sat ds' ρ → m.c * prodOf ρ m.vs = a.val ρ) → m.vs.Nodup → m.vs.length ≤ 2 → s'.used ≤ s.used + a.excess →
        (∃ s'' extra ds'', nbodyArgs qs ord fuel k' s' (new ++ [m]) args = .ok (some (s'', new ++ extra)) ∧
          ds <:+ ds'' ∧ NbInv O qs s'' ds'' ∧ (∀ ρ, Sat ds'' ρ → monosVal ρ extra = argsVal ρ (a :: args)) ∧
          (∀ m ∈ extra, m.vs.Nodup ∧ m.vs.length ≤ 2)) ∨
        (nbodyArgs qs ord fuel k' s' (new ++ [m]) args = .error .indexError ∧
          qs.length < s.used + ((a :: args).map SArg.excess).sum) := by
      intro k' s' ds' m h1 h2 h3 h4 h5 h6
      rcases ih k' s' ds' (new ++ [m]) hm' h2 with ⟨s'', extra, ds'', j1, j2, j3, j4, j5⟩ | ⟨j1, j2⟩
      · left
        refine ⟨s'', m :: extra, ds'', by rw [j1]; simp, h1.trans j2, j3, ?_, ?_⟩
        · intro ρ hρ
          rw [show m :: extra = [m] ++ extra from rfl, monosVal_append, j4 ρ hρ, argsVal, argsVal, List.map_cons, List.sum_cons,
            ← h3 ρ (fun d hd => hρ d (j2.subset hd))]
          simp [monosVal]
        · intro x hx
          rcases List.mem_cons.1 hx with rfl | hx
          · exact ⟨h4, h5⟩
          · exact j5 x hx
      · right
        refine ⟨j1, ?_⟩
        rw [List.map_cons, List.sum_cons]; omega
    match a, ha, step with
    | .sym v, ha, step =>
      rw [nbodyArgs]
      exact step k s ds ⟨1, [v]⟩ (List.suffix_refl _) hi (by simp [prodOf, SArg.val]) (by simp) (by simp) (by simp)
    | .num c, ha, step =>
      rw [nbodyArgs]
      exact step k s ds ⟨c, []⟩ (List.suffix_refl _) hi (by simp [prodOf, SArg.val]) (by simp) (by simp) (by simp)
    | .pow v k', ha, step => exact absurd ha.1 (by simp [SArg.Multilinear])
    | .mul c vs, ha, step =>
      have h0 := argInv_orig O ds hi.wf vs ha.1.1 ha.1.2
      have hf : vs.length ≤ fuel + 2 := by
        have := ha.2
        simp only [SArg.excess] at this
        omega
      rw [nbodyArgs]
      rcases nbodyLoop_ok O qs hq hO ord hord fuel k s ds vs hf hi h0 with
        ⟨s', vs', k', h1, ⟨ds', g1, g2, g3, g4, g5⟩, h3, h4, h5⟩ | ⟨h1, h2⟩
      · simp only [h1, bind, Except.bind]
        refine step k' s' ds' ⟨c, vs'⟩ g1 g2 (fun ρ hρ => by simp only [SArg.val]; rw [g4 ρ hρ]) g3.nodup h3 ?_
        simp only [SArg.excess]
        by_cases h : vs.length ≤ 2
        · rw [(h5 h).2]; omega
        · have := h4 (by omega); omega
      · simp only [h1, bind, Except.bind]
        right
        refine ⟨trivial, ?_⟩
        rw [List.map_cons, List.sum_cons]
        simp only [SArg.excess]; omega

end

end Blueqat
