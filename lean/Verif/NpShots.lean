import Verif.NpCache
import Verif.NumpyRefine
import Verif.Spec.Shots

/-! Lemmas: shots of the numpy simulator refine the specification. -/

set_option linter.unusedSimpArgs false
set_option linter.unusedVariables false

namespace Blueqat

open Spec

theorem vec_eq_amplitudes (n : ℕ) (ψ : Vec) : vec n ψ = amplitudes n ψ := rfl

/-- The plain state represents the machine state. -/
structure PRel (P : Prop) (n : ℕ) (p : PSt) (s : MState) : Prop where
  q : p.q = vec n s.psi
  cr : p.cr = cregList n s.creg
  rnd : p.rnd = s.rnd
  good : P → Good n s

theorem plainGate_refine {P : Prop} {n : ℕ} (g : Gate) (es : List Elem) (hd : GateDenotes n g es)
    (hv : ∀ e ∈ es, e.Valid n) (hq : ∀ e ∈ es, P ∨ e.IsUnitary) (p : PSt) (s : MState) (h : PRel P n p s) :
    ∃ p', plainGate n g p = .ok p' ∧ PRel P n p' (steps phSim n es s) := by
  let ctx : NpCtx := ⟨p.q, List.replicate (2 ^ n) 0, p.cr, true, p.rnd⟩
  have hw : ctx.Wf n := by simp [NpCtx.Wf, ctx, h.q]
  have hR : NpRel P n ctx s := ⟨h.q, by simp [ctx], h.cr, h.rnd, h.good⟩
  obtain ⟨c', h1, h2⟩ := npRunGate_refine g es hd hv hq ctx s hR
  have hm := plainGate_match n g ctx hw
  have hcore : ctx.core = p := rfl
  rw [hcore, h1] at hm
  cases hu : plainGate n g p with
  | error e => rw [hu] at hm; simp [Match] at hm
  | ok p' =>
    rw [hu] at hm
    obtain ⟨-, b, -, he⟩ := hm
    cases he
    exact ⟨p', rfl, h2.qubits, h2.cregs, h2.rnd, h2.good⟩

theorem plainGates_refine {P : Prop} {n : ℕ} (gs : List Gate) : ∀ (es : List Elem), GatesDenote n gs es →
    (∀ e ∈ es, e.Valid n) → (∀ e ∈ es, P ∨ e.IsUnitary) → ∀ (p : PSt) (s : MState), PRel P n p s →
    ∃ p', plainGates n gs p = .ok p' ∧ PRel P n p' (steps phSim n es s) := by
  induction gs with
  | nil => intro es hd _ _ p s h; simp only [GatesDenote] at hd; subst hd; exact ⟨p, rfl, h⟩
  | cons g gs ih =>
    rintro es ⟨e1, e2, h1, h2, rfl⟩ hv hq p s h
    obtain ⟨p1, hp1, hr1⟩ := plainGate_refine g e1 h1 (fun e he => hv e (by simp [he]))
      (fun e he => hq e (by simp [he])) p s h
    obtain ⟨p2, hp2, hr2⟩ := ih e2 h2 (fun e he => hv e (by simp [he])) (fun e he => hq e (by simp [he])) p1 _ hr1
    refine ⟨p2, ?_, ?_⟩
    · simp only [plainGates, hp1]; exact hp2
    · rw [steps_append]; exact hr2

theorem q0_eq (n : ℕ) (rnd : ℕ → ℝ) : q0 n = vec n (initState rnd).psi := by
  apply List.ext_getElem
  · simp [q0, vec]
  · intro i h1 h2
    simp only [q0, vec, List.length_set, List.length_replicate] at h1 ⊢
    by_cases h : i = 0
    · subst h; simp [initState]
    · simp [List.getElem_set, Ne.symm h, initState, h]

theorem pRel_init {P : Prop} (n : ℕ) (rnd : ℕ → ℝ) (h : P → InUnit rnd) :
    PRel P n ⟨q0 n, List.replicate n 0, rnd⟩ (initState rnd) := by
  refine ⟨q0_eq n rnd, ?_, rfl, fun hp => good_init n rnd (h hp)⟩
  apply List.ext_getElem
  · simp [cregList]
  · intro i h1 h2; simp [cregList, initState]

/-! ## Counters -/

theorem cregsKey_eq (l : List ℕ) (h : ∀ x ∈ l, x = 0 ∨ x = 1) :
    cregsKey l = String.ofList (l.map (fun x => if x = 1 then '1' else '0')) := by
  apply String.toList_injective
  rw [String.toList_ofList]
  have key : ∀ (l : List ℕ) (acc : String), (∀ x ∈ l, x = 0 ∨ x = 1) →
      ((l.map (toString : ℕ → String)).foldl (fun r s => r ++ s) acc).toList =
        acc.toList ++ l.map (fun x => if x = 1 then '1' else '0') := by
    intro l
    induction l with
    | nil => intro acc _; simp
    | cons x l ih =>
      intro acc hx
      simp only [List.map_cons, List.foldl_cons]
      rw [ih _ (fun y hy => hx y (by simp [hy])), String.toList_append]
      rcases hx x (by simp) with rfl | rfl
      · have : (toString (0:ℕ)).toList = ['0'] := by decide
        rw [this]; simp
      · have : (toString (1:ℕ)).toList = ['1'] := by decide
        rw [this]; simp
  have := key l "" h
  simpa [cregsKey, String.join] using this

theorem cregsKey_cregList (n : ℕ) (c : ℕ → Bool) : cregsKey (cregList n c) = bitString n c := by
  rw [cregsKey_eq]
  · simp only [cregList, bitString, List.map_map]
    congr 1
    apply List.map_congr_left
    intro q _
    cases h : c q <;> simp [h]
  · intro x hx
    simp only [cregList, List.mem_map] at hx
    obtain ⟨q, _, rfl⟩ := hx
    cases c q <;> simp

theorem counter_add_count (c : Counter) (key k : String) :
    countOf (c.add key) k = countOf c k + if k = key then 1 else 0 := by
  induction c with
  | nil =>
    by_cases h : k = key
    · subst h; simp [Counter.add, countOf]
    · simp [Counter.add, countOf, h, Ne.symm h]
  | cons p c ih =>
    obtain ⟨a, v⟩ := p
    by_cases h1 : a = key
    · subst h1
      simp only [Counter.add, if_true]
      by_cases h : k = a
      · subst h; simp [countOf]; omega
      · simp [countOf, h, Ne.symm h]
    · simp only [Counter.add, h1, if_false]
      simp only [countOf] at ih ⊢
      by_cases h2 : a = k
      · simp only [List.filter_cons, h2, decide_true, if_true, List.map_cons, List.sum_cons, ih]; omega
      · simp only [List.filter_cons, h2, decide_false, Bool.false_eq_true, if_false, ih]

theorem counter_add_total (c : Counter) (key : String) : total (c.add key) = total c + 1 := by
  induction c with
  | nil => rfl
  | cons p c ih =>
    obtain ⟨a, v⟩ := p
    simp only [Counter.add]
    split_ifs with h
    · simp [total]; omega
    · simp only [total, List.map_cons, List.sum_cons] at ih ⊢; omega

theorem counter_add_keys (c : Counter) (key : String) (p : String × ℕ) (h : p ∈ c.add key) :
    p.1 = key ∨ ∃ v, (p.1, v) ∈ c := by
  induction c with
  | nil => simp [Counter.add] at h; subst h; exact .inl rfl
  | cons q c ih =>
    obtain ⟨a, v⟩ := q
    simp only [Counter.add] at h
    split_ifs at h with h1
    · rcases List.mem_cons.1 h with rfl | h
      · exact .inl h1
      · exact .inr ⟨p.2, by simp [h]⟩
    · rcases List.mem_cons.1 h with rfl | h
      · exact .inr ⟨v, by simp⟩
      · rcases ih h with h | ⟨w, hw⟩
        · exact .inl h
        · exact .inr ⟨w, by simp [hw]⟩

theorem counter_add_pos (c : Counter) (key : String) (hc : ∀ p ∈ c, 0 < p.2) : ∀ p ∈ c.add key, 0 < p.2 := by
  induction c with
  | nil => intro p h; simp [Counter.add] at h; subst h; simp
  | cons q c ih =>
    obtain ⟨a, v⟩ := q
    intro p h
    simp only [Counter.add] at h
    split_ifs at h with h1
    · rcases List.mem_cons.1 h with rfl | h
      · simp
      · exact hc p (by simp [h])
    · rcases List.mem_cons.1 h with rfl | h
      · exact hc _ (by simp)
      · exact ih (fun p hp => hc p (by simp [hp])) p h

theorem counter_add_nodup (c : Counter) (key : String) (hc : (c.map Prod.fst).Nodup) :
    ((c.add key).map Prod.fst).Nodup := by
  have hmem : ∀ (c : Counter) (x : String), x ∈ (c.add key).map Prod.fst → x = key ∨ x ∈ c.map Prod.fst := by
    intro c x hx
    obtain ⟨p, hp, rfl⟩ := List.mem_map.1 hx
    rcases counter_add_keys c key p hp with h | ⟨v, hv⟩
    · exact .inl h
    · exact .inr (List.mem_map.2 ⟨_, hv, rfl⟩)
  induction c with
  | nil => simp [Counter.add]
  | cons q c ih =>
    obtain ⟨a, v⟩ := q
    simp only [List.map_cons, List.nodup_cons] at hc
    simp only [Counter.add]
    split_ifs with h1
    · simpa using hc
    · simp only [List.map_cons, List.nodup_cons]
      refine ⟨fun h => ?_, ih hc.2⟩
      rcases hmem c a h with h | h
      · exact h1 h
      · exact hc.1 h

/-! ## All shots -/

theorem plainShots_refine {P : Prop} {n : ℕ} {gates : List Gate} {es : List Elem} (hd : GatesDenote n gates es)
    (hv : ∀ e ∈ es, e.Valid n) (hq : ∀ e ∈ es, P ∨ e.IsUnitary) (k : ℕ) : ∀ (p : PSt) (res : Counter),
    (P → InUnit p.rnd) → (∀ p ∈ res, 0 < p.2) → (res.map Prod.fst).Nodup →
    ∃ p' res', plainShots n gates k p res = .ok (p', res') ∧
      (∀ s, (shotStates phSim n es k p.rnd).getLast? = some s → PRel P n p' s) ∧ (k = 0 → p' = p) ∧
      (0 < n → (∀ key, countOf res' key = countOf res key +
        (shotStates phSim n es k p.rnd).countP (fun s => decide (bitString n s.creg = key)))) ∧
      (n = 0 → res' = res) ∧ (∀ p ∈ res', 0 < p.2) ∧ (res'.map Prod.fst).Nodup := by
  induction k with
  | zero => intro p res _ h1 h2; exact ⟨p, res, rfl, by simp [shotStates], fun _ => rfl, by simp [shotStates], fun _ => rfl, h1, h2⟩
  | succ k ih =>
    intro p res hP hr1 hr2
    obtain ⟨p1, hp1, hR⟩ := plainGates_refine (P := P) gates es hd hv hq ⟨q0 n, List.replicate n 0, p.rnd⟩
      (initState p.rnd) (pRel_init n p.rnd hP)
    have hrnd : P → InUnit p1.rnd := fun hp k => by rw [hR.rnd]; exact (hR.good hp).2 k
    have hpos : ∀ x ∈ (if p1.cr = [] then res else res.add (cregsKey p1.cr)), 0 < x.2 := by
      split_ifs
      · exact hr1
      · exact counter_add_pos _ _ hr1
    have hnd : ((if p1.cr = [] then res else res.add (cregsKey p1.cr)).map Prod.fst).Nodup := by
      split_ifs
      · exact hr2
      · exact counter_add_nodup _ _ hr2
    obtain ⟨p', res', h1, h2, h3, h4, h5, h6, h7⟩ := ih p1 (if p1.cr = [] then res else res.add (cregsKey p1.cr)) hrnd hpos hnd
    refine ⟨p', res', by simp only [plainShots, hp1]; exact h1, ?_, by simp, ?_, ?_, h6, h7⟩
    · intro s hs
      simp only [shotStates] at hs
      cases k with
      | zero =>
        simp only [shotStates, List.getLast?_singleton, Option.some.injEq] at hs
        rw [h3 rfl, ← hs]; exact hR
      | succ k =>
        apply h2
        rw [hR.rnd]
        rw [List.getLast?_cons] at hs
        have hne : shotStates phSim n es (k + 1) (steps phSim n es (initState p.rnd)).rnd ≠ [] := by
          simp [shotStates]
        rw [List.getLast?_eq_some_getLast hne] at hs ⊢
        simpa using hs
    · intro hn key
      have hne : p1.cr ≠ [] := by rw [hR.cr]; simp [cregList]; omega
      rw [h4 hn key, if_neg hne, counter_add_count, hR.cr, cregsKey_cregList, hR.rnd]
      simp only [shotStates, List.countP_cons]
      by_cases hk : key = bitString n (steps phSim n es (initState p.rnd)).creg
      · simp [hk]; omega
      · simp [hk, Ne.symm hk]
    · intro hn
      rw [h5 hn, if_pos (by rw [hR.cr, hn]; rfl)]

end Blueqat
