import Verif.NpShared

/-! Lemmas: the operations counted by the index of a numpy cache contain no measurement and no reset. -/

set_option linter.unusedSimpArgs false
set_option linter.unusedVariables false

namespace Blueqat

open Spec

noncomputable section

/-- The operations that the cache index counts exist and are neither measurements nor resets. -/
def PrefixUnitary (gates : List Gate) (be : NpBackend) : Prop :=
  ∃ j : ℕ, be.cacheIdx + 1 = (j : ℤ) ∧ j ≤ gates.length ∧ (gates.take j).all (fun g => !g.isMeas) = true

theorem prefixUnitary_new (gates : List Gate) : PrefixUnitary gates NpBackend.new := ⟨0, by simp [NpBackend.new], by simp, by simp⟩

theorem prefixUnitary_append {gates : List Gate} {be : NpBackend} (l : List Gate) (h : PrefixUnitary gates be) :
    PrefixUnitary (gates ++ l) be := by
  obtain ⟨j, h1, h2, h3⟩ := h
  exact ⟨j, h1, by simp; omega, by rw [List.take_append_of_le_length h2]; exact h3⟩

theorem prefixUnitary_clear {gates : List Gate} {be : NpBackend} (n : ℕ) (h : PrefixUnitary gates be) :
    PrefixUnitary gates (be.clearIfInvalid n) := by
  rcases be with ⟨_ | q, i⟩
  · exact prefixUnitary_new gates
  · by_cases hq : q.length = 2 ^ n
    · simpa [NpBackend.clearIfInvalid, hq] using h
    · have := prefixUnitary_new gates
      simpa [NpBackend.clearIfInvalid, NpBackend.new, hq] using this

theorem npGates_prefix (n : ℕ) (rest : List Gate) : ∀ (done : List Gate) (be : NpBackend) (ctx : NpCtx), ctx.Wf n →
    (ctx.saveCache = true → be.cacheIdx + 1 = (done.length : ℤ) ∧ done.all (fun g => !g.isMeas) = true) →
    PrefixUnitary (done ++ rest) be → PrefixUnitary (done ++ rest) (npGates n rest be ctx).1 := by
  induction rest with
  | nil => intro done be ctx _ _ h; exact h
  | cons g rest ih =>
    intro done be ctx hw hs h
    have hm := plainGate_match n g ctx hw
    simp only [npGates]
    cases hu : plainGate n g ctx.core with
    | error e =>
      rw [hu] at hm
      simp only [Match] at hm
      simp only [hm]
      exact h
    | ok p =>
      rw [hu] at hm
      obtain ⟨hl, b, hb, he⟩ := hm
      simp only [he]
      have happ : done ++ g :: rest = (done ++ [g]) ++ rest := by simp
      rw [happ] at h ⊢
      have hw' : (⟨p.q, b, p.cr, ctx.saveCache && !g.isMeas, p.rnd⟩ : NpCtx).Wf n := ⟨hl, hb⟩
      by_cases hsv : (ctx.saveCache && !g.isMeas) = true
      · simp only [hsv, if_true] at hw' ⊢
        simp only [Bool.and_eq_true, Bool.not_eq_true'] at hsv
        obtain ⟨h1, h2⟩ := hs hsv.1
        have h3 : (be.cacheIdx + 1) + 1 = ((done ++ [g]).length : ℤ) := by simp; omega
        have h4 : (done ++ [g]).all (fun g => !g.isMeas) = true := by simp only [List.all_append, h2, hsv.2]; simp [hsv.2]
        refine ih (done ++ [g]) _ _ hw' (fun _ => ⟨h3, h4⟩) ⟨(done ++ [g]).length, h3, by simp, ?_⟩
        rw [List.take_left]; exact h4
      · simp only [hsv, if_false] at hw' ⊢
        exact ih (done ++ [g]) be _ hw' (fun h => by simp at h) h

theorem npShots_prefix (n : ℕ) (gates : List Gate) (k : ℕ) : ∀ (be : NpBackend) (ctx : NpCtx) (res : Counter), ctx.Wf n →
    CacheOK n gates be → PrefixUnitary gates be → PrefixUnitary gates (npShots n gates k be ctx res).1 := by
  induction k with
  | zero => intro be ctx res _ _ h; exact h
  | succ k ih =>
    intro be ctx res hw hc h
    obtain ⟨j, hj, hjl, hu⟩ := h
    obtain ⟨q, hprep, hlq, hpl⟩ : ∃ q, npPrepare n be.cache ctx = .ok ⟨q, ctx.buf, List.replicate n 0, ctx.saveCache, ctx.rnd⟩ ∧
        q.length = 2 ^ n ∧ ∀ cr r, plainGates n (gates.take j) ⟨q0 n, cr, r⟩ = .ok ⟨q, cr, r⟩ := by
      rcases hc with ⟨h1, h2⟩ | ⟨j', q, h1, h2, h3, h4, h5⟩
      · have : j = 0 := by omega
        subst this
        refine ⟨q0 n, ?_, q0_length n, fun cr r => by simp [plainGates]⟩
        simp [npPrepare, h1, hw.1, q0]
      · have : j' = j := by omega
        subst this
        exact ⟨q, by simp [npPrepare, h1, h4, hw.1], h4, h5⟩
    have hjn : (be.cacheIdx + 1).toNat = j := by omega
    have hg := npGates_spec n (gates.drop j) (gates.take j) be ⟨q, ctx.buf, List.replicate n 0, ctx.saveCache, ctx.rnd⟩
      ⟨hlq, hw.2⟩ (by simpa using hc) (fun _ => ⟨by simp [hj, hjl], hpl⟩)
    have hp := npGates_prefix n (gates.drop j) (gates.take j) be ⟨q, ctx.buf, List.replicate n 0, ctx.saveCache, ctx.rnd⟩
      ⟨hlq, hw.2⟩ (fun _ => ⟨by simp [hj, hjl], hu⟩) (by rw [List.take_append_drop]; exact ⟨j, hj, hjl, hu⟩)
    simp only [List.take_append_drop, NpCtx.core] at hg hp
    simp only [npShots, hprep, hjn]
    obtain ⟨hg1, hg2⟩ := hg
    rcases hr : npGates n (gates.drop j) be ⟨q, ctx.buf, List.replicate n 0, ctx.saveCache, ctx.rnd⟩ with ⟨be', r⟩
    rw [hr] at hg1 hg2 hp
    cases r with
    | error e => exact hp
    | ok ctx' =>
      refine ih be' ctx' _ ?_ hg1 hp
      cases hpg : plainGates n (gates.drop j) ⟨q, List.replicate n 0, ctx.rnd⟩ with
      | error e => rw [hpg] at hg2; cases hg2
      | ok p =>
        rw [hpg] at hg2
        obtain ⟨c, h1, h2, h3, -⟩ := hg2
        cases h1
        exact h3

theorem npRunArgs_prefix (n : ℕ) (gates : List Gate) (be : NpBackend) (a : RunArgs) (hc : CacheInv gates be)
    (h : PrefixUnitary gates be) : PrefixUnitary gates (npRunArgs n gates be a).1 := by
  simp only [npRunArgs]
  cases hp : npParse a.shots a.returns with
  | error e => exact h
  | ok p =>
    obtain ⟨s, ret⟩ := p
    have h1 := npShots_prefix n gates s.toNat (be.clearIfInvalid n) (npNewCtx n a.rnd) [] (by simp [NpCtx.Wf, npNewCtx]) (hc n)
      (prefixUnitary_clear n h)
    change PrefixUnitary gates (npRun n gates s.toNat be a.rnd).1 at h1
    rcases hr : npRun n gates s.toNat be a.rnd with ⟨b1, r1⟩
    rw [hr] at h1
    cases r1 <;> simpa [hr] using h1

/-- After a run with at least one shot that succeeds, from whatever state the history has left, the object holds the state of
the operations before the first measurement or reset. -/
theorem npRunArgs_fills (n : ℕ) (ops : List Gate) (be : NpBackend) (a : RunArgs) (hc : CacheInv ops be) (h : PrefixUnitary ops be)
    (hs : ∀ s, a.shots = some s → 1 ≤ s) (x : NpVal × (ℕ → ℝ)) (hx : (npRunArgs n ops NpBackend.new a).2 = .ok x) :
    HoldsState n (unitaryPart ops) (npRunArgs n ops be a).1 := by
  obtain ⟨j, h1, h2, h3⟩ := prefixUnitary_clear n h
  have hr := npRunArgs_holds n ops j (be.clearIfInvalid n) a (hc n) h1 h2 h3 hs x hx
  rw [npRunArgs_clear n ops be a x hr.1]
  exact hr.2

end

end Blueqat
