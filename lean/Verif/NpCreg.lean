import Verif.NpShots

/-! Lemmas: the classical register during a run of any gates on the numpy simulator. -/

set_option linter.unusedSimpArgs false
set_option linter.unusedVariables false

namespace Blueqat

open Spec

theorem npRunGate_measure (n : ℕ) (T : Targets) (ctx : NpCtx) :
    npRunGate n (.measure T) ctx = npGateMeasure n T ctx := rfl

theorem npRunGate_reset (n : ℕ) (T : Targets) (ctx : NpCtx) :
    npRunGate n (.reset T) ctx = npGateReset n T ctx := rfl

theorem setCreg_ok {cr cr' : List ℕ} {t : ℤ} {v : ℕ} (ht : 0 ≤ t) (h : setCreg cr t v = .ok cr') :
    t < cr.length ∧ cr' = cr.set t.toNat v := by
  simp only [setCreg] at h
  rw [if_neg (show ¬ t < 0 by omega)] at h
  split_ifs at h with h1
  cases h
  exact ⟨h1.2, rfl⟩

theorem bodyMeasure_ok {n : ℕ} {t : ℤ} {c c' : NpCtx} (h : bodyMeasure n t c = .ok c') :
    0 ≤ t ∧ t < c.cregs.length ∧ ∃ v, (v = 0 ∨ v = 1) ∧ c'.cregs = c.cregs.set t.toNat v := by
  simp only [bodyMeasure] at h
  by_cases ht : t < 0
  · simp [shl1, ht, bind, Except.bind] at h
  · have h0 : 0 ≤ t := by omega
    simp only [shl1, ht, if_false, ok_bind] at h
    split_ifs at h with hr
    · cases hs : setCreg c.cregs t 0 with
      | error e => rw [hs] at h; simp [bind, Except.bind] at h
      | ok cr =>
        rw [hs, ok_bind, pure_ok] at h
        obtain ⟨h1, h2⟩ := setCreg_ok h0 hs
        cases h
        exact ⟨h0, h1, 0, .inl rfl, h2⟩
    · cases hs : setCreg c.cregs t 1 with
      | error e => rw [hs] at h; simp [bind, Except.bind] at h
      | ok cr =>
        rw [hs, ok_bind, pure_ok] at h
        obtain ⟨h1, h2⟩ := setCreg_ok h0 hs
        cases h
        exact ⟨h0, h1, 1, .inr rfl, h2⟩

theorem bodyReset_ok {n : ℕ} {t : ℤ} {c c' : NpCtx} (h : bodyReset n t c = .ok c') : c'.cregs = c.cregs := by
  simp only [bodyReset] at h
  by_cases ht : t < 0
  · simp [shl1, ht, bind, Except.bind] at h
  · simp only [shl1, ht, if_false, ok_bind] at h
    split_ifs at h with hr
    · rw [pure_ok] at h; cases h; rfl
    · cases hs : asg c.qubits (maskEq n (2 ^ t.toNat)) (sel c.qubits (maskNe n (2 ^ t.toNat))) with
      | error e => rw [hs] at h; simp [bind, Except.bind] at h
      | ok q => rw [hs, ok_bind, pure_ok] at h; cases h; rfl

theorem forGen_inv {σ : Type} {g : Gen ℤ} {body : ℤ → σ → Except PyErr σ} {s s' : σ} (I : σ → Prop)
    (hb : g.err = none → ∀ t ∈ g.vals, ∀ s s', I s → body t s = .ok s' → I s') (hs : I s)
    (h : forGen g body s = .ok s') : I s' := by
  have hfold : ∀ (l : List ℤ) (s s' : σ), (∀ t ∈ l, ∀ s s', I s → body t s = .ok s' → I s') → I s →
      l.foldlM (fun s t => body t s) s = .ok s' → I s' := by
    intro l
    induction l with
    | nil => intro s s' _ hs h; cases h; exact hs
    | cons t l ih =>
      intro s s' hb hs h
      rw [List.foldlM_cons] at h
      cases hx : body t s with
      | error e => rw [hx] at h; cases h
      | ok s1 =>
        rw [hx] at h
        exact ih s1 s' (fun t ht => hb t (by simp [ht])) (hb t (by simp) s s1 hs hx) h
  simp only [forGen] at h
  cases hf : g.vals.foldlM (fun s t => body t s) s with
  | error e => rw [hf] at h; cases h
  | ok s1 =>
    rw [hf] at h
    cases he : g.err with
    | some e => rw [he] at h; cases h
    | none =>
      rw [he] at h
      cases h
      exact hfold g.vals s _ (hb he) hs hf

/-- The register holds `n` bits and a 0 for every qubit that `M` excludes. -/
def CrOK (n : ℕ) (M : ℕ → Prop) (cr : List ℕ) : Prop :=
  cr.length = n ∧ (∀ x ∈ cr, x = 0 ∨ x = 1) ∧ ∀ q < n, ¬ M q → cr[q]? = some 0

theorem npGateMeasure_cr {n : ℕ} {T : Targets} {c c' : NpCtx} {M : ℕ → Prop} (hM : ∀ q, MeasuredBy n [.measure T] q → M q)
    (hc : CrOK n M c.cregs) (h : npGateMeasure n T c = .ok c') : CrOK n M c'.cregs := by
  simp only [npGateMeasure] at h
  cases hf : forGen (slicing T n) (bodyMeasure n) c with
  | error e => rw [hf] at h; cases h
  | ok c1 =>
    rw [hf] at h
    cases h
    refine forGen_inv (s' := c1) (fun c : NpCtx => CrOK n M c.cregs) ?_ hc hf
    intro he t ht s s' hI hb
    obtain ⟨h0, h1, v, hv, h2⟩ := bodyMeasure_ok hb
    have hden : TargetsDenote n T (slicing T n).vals := by
      rw [← slicing_eq_iff]; cases hs : slicing T n; rw [hs] at he; simp only at he; subst he; rfl
    have hMt : M t.toNat := hM _ ⟨T, _, by simp, hden, by rw [Int.toNat_of_nonneg h0]; exact ht⟩
    obtain ⟨g1, g2, g3⟩ := hI
    refine ⟨by simp [h2, g1], ?_, ?_⟩
    · intro x hx
      rw [h2] at hx
      rcases List.mem_or_eq_of_mem_set hx with hx | rfl
      · exact g2 x hx
      · exact hv
    · intro q hq hnq
      rw [h2, List.getElem?_set]
      rw [if_neg (fun h : t.toNat = q => hnq (h ▸ hMt))]
      exact g3 q hq hnq

theorem npGateReset_cr {n : ℕ} {T : Targets} {c c' : NpCtx} (h : npGateReset n T c = .ok c') : c'.cregs = c.cregs := by
  simp only [npGateReset] at h
  cases hf : forGen (slicing T n) (bodyReset n) c with
  | error e => rw [hf] at h; cases h
  | ok c1 =>
    rw [hf] at h
    cases h
    refine forGen_inv (s' := c1) (fun c1 : NpCtx => c1.cregs = c.cregs) ?_ rfl hf
    intro he t ht s s' hI hb
    rw [bodyReset_ok hb, hI]

theorem plainGate_cr {n : ℕ} {g : Gate} {p p' : PSt} {M : ℕ → Prop} (hM : ∀ q, MeasuredBy n [g] q → M q)
    (hl : p.q.length = 2 ^ n) (hc : CrOK n M p.cr) (h : plainGate n g p = .ok p') :
    p'.q.length = 2 ^ n ∧ CrOK n M p'.cr := by
  let c : NpCtx := ⟨p.q, List.replicate (2 ^ n) 0, p.cr, true, p.rnd⟩
  have hm := plainGate_match n g c (by simp [NpCtx.Wf, c, hl])
  have hcore : c.core = p := rfl
  rw [hcore, h] at hm
  obtain ⟨hl', b, hb, he⟩ := hm
  refine ⟨hl', ?_⟩
  by_cases hg : g.isMeas = false
  · obtain ⟨U0, hU⟩ := plainGate_nomeas n g hg
    rw [hU] at h
    cases hx : U0 p.q with
    | error e => rw [hx] at h; cases h
    | ok q => rw [hx] at h; cases h; exact hc
  · cases g with
    | measure T => exact npGateMeasure_cr hM hc he
    | reset T =>
      have := npGateReset_cr he
      simp only at this
      rw [this]; exact hc
    | g1 k T => simp [Gate.isMeas] at hg
    | g2 k T => simp [Gate.isMeas] at hg
    | g3 k T => simp [Gate.isMeas] at hg

theorem plainGates_cr {n : ℕ} {M : ℕ → Prop} (gs : List Gate) : ∀ {p p' : PSt}, (∀ q, MeasuredBy n gs q → M q) →
    p.q.length = 2 ^ n → CrOK n M p.cr → plainGates n gs p = .ok p' → CrOK n M p'.cr := by
  induction gs with
  | nil => intro p p' _ _ hc h; cases h; exact hc
  | cons g gs ih =>
    intro p p' hM hl hc h
    simp only [plainGates] at h
    cases hg : plainGate n g p with
    | error e => rw [hg] at h; cases h
    | ok p1 =>
      rw [hg] at h
      obtain ⟨h1, h2⟩ := plainGate_cr (fun q hq => hM q (by
        obtain ⟨T, vals, hT, hv⟩ := hq
        exact ⟨T, vals, by simp only [List.mem_singleton] at hT; simp [hT], hv⟩)) hl hc hg
      exact ih (fun q hq => hM q (by
        obtain ⟨T, vals, hT, hv⟩ := hq
        exact ⟨T, vals, by simp [hT], hv⟩)) h1 h2 h

theorem crOK_zero (n : ℕ) (M : ℕ → Prop) : CrOK n M (List.replicate n 0) := by
  refine ⟨by simp, fun x hx => .inl (by simp at hx; exact hx.2), fun q hq _ => ?_⟩
  rw [List.getElem?_replicate, if_pos hq]

/-- A key: `n` characters, each 0 or 1, and 0 where `M` excludes. -/
def KeyOK (n : ℕ) (M : ℕ → Prop) (key : String) : Prop :=
  key.toList.length = n ∧ (∀ x ∈ key.toList, x = '0' ∨ x = '1') ∧ ∀ q < n, ¬ M q → key.toList[q]? = some '0'

theorem keyOK_of_cr {n : ℕ} {M : ℕ → Prop} {cr : List ℕ} (h : CrOK n M cr) : KeyOK n M (cregsKey cr) := by
  obtain ⟨h1, h2, h3⟩ := h
  rw [cregsKey_eq cr h2]
  simp only [KeyOK, String.toList_ofList, List.length_map]
  refine ⟨h1, ?_, ?_⟩
  · intro x hx
    obtain ⟨y, _, rfl⟩ := List.mem_map.1 hx
    split_ifs <;> simp
  · intro q hq hnq
    rw [List.getElem?_map, h3 q hq hnq]; rfl

theorem plainShots_keys {n : ℕ} {gates : List Gate} (k : ℕ) : ∀ {p p' : PSt} {res res' : Counter},
    plainShots n gates k p res = .ok (p', res') →
    (∀ x ∈ res, KeyOK n (MeasuredBy n gates) x.1) → (∀ x ∈ res, 0 < x.2) → (res.map Prod.fst).Nodup →
    (∀ x ∈ res', KeyOK n (MeasuredBy n gates) x.1) ∧ (∀ x ∈ res', 0 < x.2) ∧ (res'.map Prod.fst).Nodup ∧
      total res' = total res + (if n = 0 then 0 else k) := by
  induction k with
  | zero => intro p p' res res' h h1 h2 h3; cases h; exact ⟨h1, h2, h3, by simp⟩
  | succ k ih =>
    intro p p' res res' h h1 h2 h3
    simp only [plainShots] at h
    cases hg : plainGates n gates ⟨q0 n, List.replicate n 0, p.rnd⟩ with
    | error e => rw [hg] at h; cases h
    | ok p1 =>
      rw [hg] at h
      have hcr := plainGates_cr (M := MeasuredBy n gates) gates (fun q hq => hq) (q0_length n)
        (crOK_zero n _) hg
      have hnil : p1.cr = [] ↔ n = 0 := by rw [← List.length_eq_zero_iff, hcr.1]
      simp only at h
      by_cases hn : n = 0
      · rw [if_pos (hnil.2 hn)] at h
        have := ih h h1 h2 h3
        simpa [hn] using this
      · rw [if_neg (fun hh => hn (hnil.1 hh))] at h
        obtain ⟨g1, g2, g3, g4⟩ := ih h (fun x hx => by
          rcases counter_add_keys _ _ x hx with hx | ⟨v, hv⟩
          · rw [hx]; exact keyOK_of_cr hcr
          · exact h1 (x.1, v) hv) (counter_add_pos _ _ h2) (counter_add_nodup _ _ h3)
        refine ⟨g1, g2, g3, ?_⟩
        rw [g4, counter_add_total]
        simp only [hn, if_false]; omega

end Blueqat
