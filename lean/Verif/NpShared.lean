import Verif.NpCache
import Verif.Spec.World

/-! Lemmas: what the numpy cache holds after a run, and what a run with the cache of another circuit computes. -/

set_option linter.unusedSimpArgs false
set_option linter.unusedVariables false

namespace Blueqat

open Spec

noncomputable section

theorem unitaryPart_eq (l : List Gate) : unitaryPart l = l.takeWhile (fun g => !g.isMeas) := by
  induction l with
  | nil => rfl
  | cons g l ih => cases g <;> simp [unitaryPart, Gate.isMeas, ih, List.takeWhile]

theorem npGates_cached (n : ℕ) (rest : List Gate) : ∀ (be : NpBackend) (ctx : NpCtx) (p : PSt), ctx.Wf n →
    plainGates n rest ctx.core = .ok p →
    (npGates n rest be ctx).1.cacheIdx = be.cacheIdx + (if ctx.saveCache = true then ((rest.takeWhile (fun g => !g.isMeas)).length : ℤ) else 0) ∧
    ∃ ctx', (npGates n rest be ctx).2 = .ok ctx' ∧ ctx'.Wf n ∧ ctx'.saveCache = (ctx.saveCache && rest.all (fun g => !g.isMeas)) := by
  induction rest with
  | nil => intro be ctx p hw h; exact ⟨by simp [npGates], ctx, rfl, hw, by simp⟩
  | cons g rest ih =>
    intro be ctx p hw h
    have hm := plainGate_match n g ctx hw
    simp only [plainGates] at h
    simp only [npGates]
    cases hu : plainGate n g ctx.core with
    | error e => rw [hu] at h; cases h
    | ok p1 =>
      rw [hu] at hm h
      obtain ⟨hl, b, hb, he⟩ := hm
      simp only [he]
      have hw' : (⟨p1.q, b, p1.cr, ctx.saveCache && !g.isMeas, p1.rnd⟩ : NpCtx).Wf n := ⟨hl, hb⟩
      by_cases hsv : (ctx.saveCache && !g.isMeas) = true
      · simp only [hsv, if_true] at hw' ⊢
        obtain ⟨k1, ctx', k2, k3, k4⟩ := ih ⟨some p1.q, be.cacheIdx + 1⟩ _ p hw' h
        simp only [Bool.and_eq_true, Bool.not_eq_true'] at hsv
        refine ⟨?_, ctx', k2, k3, ?_⟩
        · rw [k1]; simp [hsv.1, hsv.2, List.takeWhile]; ring
        · rw [k4]; simp [hsv.1, hsv.2]
      · simp only [hsv, if_false] at hw' ⊢
        simp only [Bool.not_eq_true] at hsv
        obtain ⟨k1, ctx', k2, k3, k4⟩ := ih be _ p hw' h
        simp only [hsv, Bool.false_eq_true, if_false, Bool.false_and] at k1 k2 k4 ⊢
        refine ⟨?_, ctx', k2, k3, ?_⟩
        · rw [k1]
          simp only [Bool.and_eq_false_iff, Bool.not_eq_false'] at hsv
          rcases hsv with hsv | hsv
          · simp [hsv]
          · simp [hsv, List.takeWhile]
        · rw [k4]
          simp only [List.all_cons, ← Bool.and_assoc, hsv, Bool.false_and]

theorem npGates_mono (n : ℕ) (rest : List Gate) : ∀ (be : NpBackend) (ctx : NpCtx), be.cacheIdx ≤ (npGates n rest be ctx).1.cacheIdx := by
  induction rest with
  | nil => intro be ctx; exact le_rfl
  | cons g rest ih =>
    intro be ctx
    simp only [npGates]
    cases npRunGate n g ctx with
    | error e => exact le_rfl
    | ok ctx' =>
      simp only
      split_ifs
      · have := ih ⟨some ctx'.qubits, be.cacheIdx + 1⟩ ctx'
        simp only at this
        omega
      · exact ih be ctx'

/-- Only the operations after the cached ones matter. -/
theorem npShots_congr (n : ℕ) (a b : List Gate) (m : ℕ) (h : a.drop m = b.drop m) (k : ℕ) :
    ∀ (be : NpBackend) (ctx : NpCtx) (res : Counter), (m : ℤ) ≤ be.cacheIdx + 1 → npShots n a k be ctx res = npShots n b k be ctx res := by
  induction k with
  | zero => intro be ctx res _; rfl
  | succ k ih =>
    intro be ctx res hm
    simp only [npShots]
    have hd : a.drop (be.cacheIdx + 1).toNat = b.drop (be.cacheIdx + 1).toNat := by
      obtain ⟨d, hd⟩ : ∃ d, (be.cacheIdx + 1).toNat = m + d := ⟨(be.cacheIdx + 1).toNat - m, by omega⟩
      rw [hd, ← List.drop_drop, ← List.drop_drop, h]
    cases npPrepare n be.cache ctx with
    | error e => rfl
    | ok ctx1 =>
      simp only [hd]
      have hmono := npGates_mono n (b.drop (be.cacheIdx + 1).toNat) be ctx1
      rcases hr : npGates n (b.drop (be.cacheIdx + 1).toNat) be ctx1 with ⟨be', r⟩
      rw [hr] at hmono
      cases r with
      | error e => rfl
      | ok ctx2 => exact ih be' ctx2 _ (by simp only at hmono; omega)

theorem takeWhile_split {α : Type} (p : α → Bool) (l : List α) : ∀ j : ℕ, (l.take j).all p = true →
    (l.takeWhile p).length = (l.take j).length + ((l.drop j).takeWhile p).length := by
  induction l with
  | nil => intro j _; simp
  | cons x l ih =>
    intro j h
    cases j with
    | zero => simp
    | succ j =>
      simp only [List.take_succ_cons, List.all_cons, Bool.and_eq_true] at h
      have := ih j h.2
      simp only [List.takeWhile, h.1, List.length_cons, List.take_succ_cons, List.drop_succ_cons, this]
      omega

/-- After a run that succeeds with at least one shot, the cache holds the operations before the first measurement or reset. -/
theorem npShots_cached (n : ℕ) (gates : List Gate) (k : ℕ) : ∀ (be : NpBackend) (ctx : NpCtx) (res : Counter) (j : ℕ), ctx.Wf n →
    CacheOK n gates be → be.cacheIdx + 1 = (j : ℕ) → j ≤ gates.length → (gates.take j).all (fun g => !g.isMeas) = true →
    (ctx.saveCache = true ∧ k ≠ 0 ∨ j = (gates.takeWhile (fun g => !g.isMeas)).length) →
    ∀ x, (npShots n gates k be ctx res).2 = .ok x →
    (npShots n gates k be ctx res).1.cacheIdx + 1 = ((gates.takeWhile (fun g => !g.isMeas)).length : ℤ) := by
  induction k with
  | zero =>
    intro be ctx res j hw hc hj hjl hu hs x hx
    rcases hs with ⟨-, h⟩ | h
    · exact absurd rfl h
    · simp only [npShots]; rw [hj, h]
  | succ k ih =>
    intro be ctx res j hw hc hj hjl hu hs x hx
    obtain ⟨q, hprep, hlq, hpl⟩ : ∃ q, npPrepare n be.cache ctx = .ok ⟨q, ctx.buf, List.replicate n 0, ctx.saveCache, ctx.rnd⟩ ∧
        q.length = 2 ^ n ∧ ∀ cr r, plainGates n (gates.take j) ⟨q0 n, cr, r⟩ = .ok ⟨q, cr, r⟩ := by
      rcases hc with ⟨h1, h2⟩ | ⟨j', q, h1, h2, h3, h4, h5⟩
      · have : j = 0 := by omega
        subst this
        refine ⟨q0 n, ?_, q0_length n, fun cr r => by simp [plainGates]⟩
        simp [npPrepare, h1, hw.1, q0]
      · have : j' = j := by omega
        subst this
        exact ⟨q, by simp [npPrepare, h1, h4, hw.1], h4, h5⟩
    have hjn : (be.cacheIdx + 1).toNat = j := by omega
    have hg := npGates_spec n (gates.drop j) (gates.take j) be ⟨q, ctx.buf, List.replicate n 0, ctx.saveCache, ctx.rnd⟩
      ⟨hlq, hw.2⟩ (by simpa using hc) (fun _ => ⟨by simp [hj, hjl], hpl⟩)
    simp only [List.take_append_drop, NpCtx.core] at hg
    simp only [npShots, hprep, hjn] at hx ⊢
    cases hpg : plainGates n (gates.drop j) ⟨q, List.replicate n 0, ctx.rnd⟩ with
    | error e =>
      rw [hpg] at hg
      obtain ⟨-, hg2⟩ := hg
      rcases hr : npGates n (gates.drop j) be ⟨q, ctx.buf, List.replicate n 0, ctx.saveCache, ctx.rnd⟩ with ⟨be', r⟩
      rw [hr] at hg2 hx
      simp only at hg2
      subst hg2
      cases hx
    | ok p =>
      rw [hpg] at hg
      obtain ⟨hg1, -⟩ := hg
      obtain ⟨c1, ctx', c2, c3, c4⟩ := npGates_cached n (gates.drop j) be ⟨q, ctx.buf, List.replicate n 0, ctx.saveCache, ctx.rnd⟩ p
        ⟨hlq, hw.2⟩ hpg
      rcases hr : npGates n (gates.drop j) be ⟨q, ctx.buf, List.replicate n 0, ctx.saveCache, ctx.rnd⟩ with ⟨be', r⟩
      rw [hr] at c1 c2 hg1 hx
      simp only at c1 c2 c4
      subst c2
      have hsp := takeWhile_split (fun g : Gate => !g.isMeas) gates j hu
      have hlt : (gates.take j).length = j := by simp [hjl]
      have hfull : be'.cacheIdx + 1 = ((gates.takeWhile (fun g => !g.isMeas)).length : ℤ) := by
        rw [c1, hsp, hlt]
        rcases hs with ⟨hs, -⟩ | hs
        · rw [if_pos hs]; push_cast; omega
        · have : ((gates.drop j).takeWhile (fun g => !g.isMeas)).length = 0 := by omega
          rw [this]; split_ifs <;> push_cast <;> omega
      refine ih be' ctx' _ _ c3 hg1 hfull ?_ ?_ (.inr rfl) x hx
      · exact (List.takeWhile_prefix _).length_le
      · rw [← List.prefix_iff_eq_take.1 (List.takeWhile_prefix _)]
        exact List.all_takeWhile

/-- The object holds exactly the state after the operations `L`, for circuits of `n` qubits. -/
def HoldsState (n : ℕ) (L : List Gate) (be : NpBackend) : Prop := CacheOK n L be ∧ be.cacheIdx + 1 = (L.length : ℤ)

theorem holds_clear_same {n : ℕ} {L : List Gate} {be : NpBackend} (h : HoldsState n L be) : be.clearIfInvalid n = be := by
  rcases h.1 with ⟨h1, h2⟩ | ⟨k, q, h1, h2, h3, h4, h5⟩
  · rcases be with ⟨c, i⟩
    simp only at h1 h2
    subst h1 h2
    rfl
  · rcases be with ⟨c, i⟩
    simp only at h1
    subst h1
    simp [NpBackend.clearIfInvalid, h4]

theorem holds_clear_other {n m : ℕ} {L : List Gate} {be : NpBackend} (h : HoldsState n L be) (hn : n ≠ m) :
    be.clearIfInvalid m = NpBackend.new := by
  rcases h.1 with ⟨h1, h2⟩ | ⟨k, q, h1, h2, h3, h4, h5⟩
  · rcases be with ⟨c, i⟩
    simp only at h1 h2
    subst h1 h2
    rfl
  · rcases be with ⟨c, i⟩
    simp only at h1
    subst h1
    have : (2 : ℕ) ^ n ≠ 2 ^ m := fun h => hn (Nat.pow_right_injective le_rfl h)
    simp [NpBackend.clearIfInvalid, h4, this, NpBackend.new]

theorem npRunArgs_clear (n : ℕ) (ops : List Gate) (be : NpBackend) (a : RunArgs) (r : NpVal × (ℕ → ℝ)) :
    (npRunArgs n ops (be.clearIfInvalid n) a).2 = .ok r → npRunArgs n ops be a = npRunArgs n ops (be.clearIfInvalid n) a := by
  have hclear : (be.clearIfInvalid n).clearIfInvalid n = be.clearIfInvalid n := by
    rcases be with ⟨_ | q, i⟩
    · rfl
    · by_cases hq : q.length = 2 ^ n <;> simp [NpBackend.clearIfInvalid, hq]
  simp only [npRunArgs]
  cases hp : npParse a.shots a.returns with
  | error e => intro h; cases h
  | ok p => intro _; simp only [npRun, hclear]

/-- A run on a cache that is right: the result is that of a run without a cache, and the operations before the first
measurement or reset are cached afterwards. -/
theorem npRunArgs_holds (n : ℕ) (E : List Gate) (j : ℕ) (be : NpBackend) (a : RunArgs) (hc : CacheOK n E be) (hj : be.cacheIdx + 1 = (j : ℕ))
    (hjl : j ≤ E.length) (hu : (E.take j).all (fun g => !g.isMeas) = true) (hs : ∀ s, a.shots = some s → 1 ≤ s)
    (x : NpVal × (ℕ → ℝ)) (hx : (npRunArgs n E NpBackend.new a).2 = .ok x) :
    (npRunArgs n E be a).2 = .ok x ∧ HoldsState n (unitaryPart E) (npRunArgs n E be a).1 := by
  have hcl : be.clearIfInvalid n = be := by
    rcases hc with ⟨h1, h2⟩ | ⟨k, q, h1, h2, h3, h4, h5⟩
    · rcases be with ⟨c, i⟩
      simp only at h1 h2
      subst h1 h2
      rfl
    · rcases be with ⟨c, i⟩
      simp only at h1
      subst h1
      simp [NpBackend.clearIfInvalid, h4]
  have h2 : (npRunArgs n E be a).2 = .ok x := by
    rw [(npRunArgs_spec n E be (cacheInv_of_ok hc) a).2]; exact hx
  refine ⟨h2, ?_⟩
  simp only [npRunArgs] at h2 ⊢
  cases hp : npParse a.shots a.returns with
  | error e => rw [hp] at h2; cases h2
  | ok p =>
    obtain ⟨s, ret⟩ := p
    have hs1 : 1 ≤ s := by
      revert hp
      simp only [npParse]
      cases ha : a.shots with
      | none => simp only; intro hp; split_ifs at hp <;> cases hp <;> norm_num
      | some k => simp only; intro hp; split_ifs at hp; cases hp; exact hs _ ha
    rw [hp] at h2
    simp only at h2 ⊢
    have hw : (npNewCtx n a.rnd).Wf n := by simp [NpCtx.Wf, npNewCtx]
    have h3 := (npShots_spec n E s.toNat be (npNewCtx n a.rnd) [] hw hc).1
    have h4 := npShots_cached n E s.toNat be (npNewCtx n a.rnd) [] j hw hc hj hjl hu (.inl ⟨rfl, by omega⟩)
    rcases hr : npRun n E s.toNat be a.rnd with ⟨b1, r1⟩
    have hr' : npShots n E s.toNat be (npNewCtx n a.rnd) [] = ⟨b1, r1⟩ := by
      rw [← hr]; simp only [npRun, hcl]
    rw [hr'] at h3 h4
    rw [hr] at h2
    cases r1 with
    | error e => cases h2
    | ok y =>
      simp only at h3 h4 ⊢
      have h5 := h4 y rfl
      rw [← unitaryPart_eq] at h5
      refine ⟨?_, h5⟩
      have hpre : unitaryPart E <+: E := by rw [unitaryPart_eq]; exact List.takeWhile_prefix _
      rcases h3 with h | ⟨k, q, g1, g2, g3, g4, g5⟩
      · exact .inl h
      · have : k = (unitaryPart E).length := by omega
        subst this
        refine .inr ⟨_, q, g1, g2, le_rfl, g4, ?_⟩
        rw [List.take_length, List.prefix_iff_eq_take.1 hpre]
        exact g5

/-- A run on an object that holds the state of `L`. -/
theorem npRunArgs_shared (n m : ℕ) (L ops : List Gate) (be : NpBackend) (a : RunArgs) (h : HoldsState n L be)
    (hL : L.all (fun g => !g.isMeas) = true) (hs : ∀ s, a.shots = some s → 1 ≤ s) (E : List Gate)
    (hE : E = if n = m then L ++ ops.drop L.length else ops)
    (x : NpVal × (ℕ → ℝ)) (hx : (npRunArgs m E NpBackend.new a).2 = .ok x) :
    (npRunArgs m ops be a).2 = .ok x ∧ HoldsState m (unitaryPart E) (npRunArgs m ops be a).1 := by
  by_cases hn : n = m
  · subst hn
    rw [if_pos rfl] at hE
    have hc : CacheOK n E be := by
      rcases h.1 with h1 | ⟨k, q, g1, g2, g3, g4, g5⟩
      · exact .inl h1
      · refine .inr ⟨k, q, g1, g2, by rw [hE]; simp; omega, g4, ?_⟩
        rw [hE, List.take_append_of_le_length g3]; exact g5
    have hr := npRunArgs_holds n E L.length be a hc h.2 (by rw [hE]; simp) (by rw [hE]; simpa using hL) hs x hx
    have heq : npRunArgs n ops be a = npRunArgs n E be a := by
      simp only [npRunArgs, npRun, holds_clear_same h]
      have : ∀ k, npShots n ops k be (npNewCtx n a.rnd) [] = npShots n E k be (npNewCtx n a.rnd) [] :=
        fun k => npShots_congr n ops E L.length (by rw [hE]; simp) k _ _ _ h.2.ge
      simp only [this]
    rw [heq]; exact hr
  · rw [if_neg hn] at hE
    subst hE
    have hcl := holds_clear_other h hn
    have := npRunArgs_clear m E be a x (by rw [hcl]; exact hx)
    rw [this, hcl]
    exact npRunArgs_holds m E 0 NpBackend.new a (.inl ⟨rfl, rfl⟩) (by simp [NpBackend.new]) (by simp) (by simp) hs x hx

end

end Blueqat
