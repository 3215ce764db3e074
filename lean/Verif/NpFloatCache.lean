import Verif.NpCache
import Verif.NpFloatPlain

/-! Lemmas: the numpy cache never changes what a run returns, in rounded arithmetic. The proofs are those of
`Verif.NpCache` with the arithmetic as a parameter. -/

set_option linter.unusedSimpArgs false
set_option linter.unusedVariables false

namespace Blueqat

namespace FlNp

noncomputable section

variable {F : FloatOps}

/-- What one gate does to amplitudes, classical bits and random numbers. -/
def plainGate (F : FloatOps) (n : ℕ) (g : Gate) : PSt → Except PyErr PSt := Classical.choose (flRunGate_plain F n g)

theorem plainGate_match (n : ℕ) (g : Gate) (c : NpCtx) (h : c.Wf n) :
    Match n c g.isMeas (plainGate F n g c.core) (runGate (flAction F n) n recursionLimit g c) :=
  (Classical.choose_spec (flRunGate_plain F n g)).1 c h

theorem plainGate_nomeas (n : ℕ) (g : Gate) (h : g.isMeas = false) : ∃ U0 : Arr → Except PyErr Arr,
    ∀ p, plainGate F n g p = (U0 p.q).map (fun q => ⟨q, p.cr, p.rnd⟩) :=
  (Classical.choose_spec (flRunGate_plain F n g)).2 h

def plainGates (F : FloatOps) (n : ℕ) : List Gate → PSt → Except PyErr PSt
  | [], p => .ok p
  | g :: gs, p =>
    match plainGate F n g p with
    | .error e => .error e
    | .ok p => plainGates F n gs p

theorem plainGates_append (n : ℕ) (a b : List Gate) (p : PSt) :
    plainGates F n (a ++ b) p = match plainGates F n a p with
      | .error e => .error e
      | .ok p => plainGates F n b p := by
  induction a generalizing p with
  | nil => rfl
  | cons g a ih =>
    simp only [List.cons_append, plainGates]
    cases plainGate F n g p with
    | error e => rfl
    | ok p => exact ih p

/-- The cache holds the state after a measurement-free prefix of the gates. -/
def CacheOK (F : FloatOps) (n : ℕ) (gates : List Gate) (be : NpBackend) : Prop :=
  (be.cache = none ∧ be.cacheIdx = -1) ∨
  ∃ k q, be.cache = some q ∧ be.cacheIdx + 1 = (k : ℕ) ∧ k ≤ gates.length ∧ q.length = 2 ^ n ∧
    ∀ cr r, plainGates F n (gates.take k) ⟨q0 n, cr, r⟩ = .ok ⟨q, cr, r⟩

/-- The cache fields as they are while `save_cache` holds and `done` has been executed. -/
def Synced (F : FloatOps) (n : ℕ) (done : List Gate) (be : NpBackend) (q : Arr) : Prop :=
  be.cacheIdx + 1 = done.length ∧ (∀ cr r, plainGates F n done ⟨q0 n, cr, r⟩ = .ok ⟨q, cr, r⟩)

theorem npGates_spec (n : ℕ) (rest : List Gate) : ∀ (done : List Gate) (be : NpBackend) (ctx : NpCtx), ctx.Wf n →
    CacheOK F n (done ++ rest) be → (ctx.saveCache = true → Synced F n done be ctx.qubits) →
    CacheOK F n (done ++ rest) (flGates F n rest be ctx).1 ∧
      match plainGates F n rest ctx.core with
      | .error e => (flGates F n rest be ctx).2 = .error e
      | .ok p => ∃ ctx', (flGates F n rest be ctx).2 = .ok ctx' ∧ ctx'.core = p ∧ ctx'.Wf n ∧
          (ctx'.saveCache = true → Synced F n (done ++ rest) (flGates F n rest be ctx).1 ctx'.qubits) := by
  induction rest with
  | nil =>
    intro done be ctx hw hc hs
    simp only [List.append_nil] at hc ⊢
    exact ⟨hc, ctx, rfl, rfl, hw, hs⟩
  | cons g rest ih =>
    intro done be ctx hw hc hs
    have hm := plainGate_match (F := F) n g ctx hw
    simp only [flGates, plainGates]
    cases hu : plainGate F n g ctx.core with
    | error e =>
      rw [hu] at hm
      simp only [Match] at hm
      simp only [hm]
      exact ⟨hc, trivial⟩
    | ok p =>
      rw [hu] at hm
      obtain ⟨hl, b, hb, he⟩ := hm
      simp only [he]
      have happ : done ++ g :: rest = (done ++ [g]) ++ rest := by simp
      rw [happ] at hc ⊢
      have hw' : (⟨p.q, b, p.cr, ctx.saveCache && !g.isMeas, p.rnd⟩ : NpCtx).Wf n := ⟨hl, hb⟩
      by_cases hsv : (ctx.saveCache && !g.isMeas) = true
      · simp only [hsv, if_true] at hw' ⊢
        simp only [Bool.and_eq_true, Bool.not_eq_true'] at hsv
        obtain ⟨h1, h2⟩ := hs hsv.1
        obtain ⟨U0, hU⟩ := plainGate_nomeas (F := F) n g hsv.2
        have hp : ∀ cr r, plainGate F n g ⟨ctx.qubits, cr, r⟩ = .ok ⟨p.q, cr, r⟩ := by
          intro cr r
          have h3 := hU ctx.core
          rw [hu] at h3
          have h4 : U0 ctx.qubits = .ok p.q := by
            cases hx : U0 ctx.qubits with
            | error e => simp only [NpCtx.core, hx, Except.map] at h3; cases h3
            | ok q => simp only [NpCtx.core, hx, Except.map, Except.ok.injEq] at h3; rw [h3]
          rw [hU]; simp only [h4]; rfl
        have hsync : Synced F n (done ++ [g]) ⟨some p.q, be.cacheIdx + 1⟩ p.q := by
          refine ⟨by simp; omega, fun cr r => ?_⟩
          rw [plainGates_append, h2]
          simp only [plainGates, hp]
        have := ih (done ++ [g]) ⟨some p.q, be.cacheIdx + 1⟩ ⟨p.q, b, p.cr, true, p.rnd⟩ hw' ?_ (fun _ => hsync)
        · exact this
        · refine .inr ⟨(done ++ [g]).length, p.q, rfl, hsync.1, by simp, hl, fun cr r => ?_⟩
          rw [List.take_left]; exact hsync.2 cr r
      · simp only [hsv, if_false] at hw' ⊢
        simp only [Bool.not_eq_true] at hsv
        have := ih (done ++ [g]) be ⟨p.q, b, p.cr, ctx.saveCache && !g.isMeas, p.rnd⟩ hw' hc (by simp [hsv])
        simpa [hsv, NpCtx.core] using this

def plainShots (F : FloatOps) (n : ℕ) (gates : List Gate) : ℕ → PSt → Counter → Except PyErr (PSt × Counter)
  | 0, p, res => .ok (p, res)
  | k + 1, p, res =>
    match plainGates F n gates ⟨q0 n, List.replicate n 0, p.rnd⟩ with
    | .error e => .error e
    | .ok p => plainShots F n gates k p (if p.cr = [] then res else res.add (cregsKey p.cr))

theorem npShots_spec (n : ℕ) (gates : List Gate) (k : ℕ) : ∀ (be : NpBackend) (ctx : NpCtx) (res : Counter),
    ctx.Wf n → CacheOK F n gates be →
    CacheOK F n gates (flShots F n gates k be ctx res).1 ∧
      (flShots F n gates k be ctx res).2.map (fun x => (x.1.core, x.2)) = plainShots F n gates k ctx.core res := by
  induction k with
  | zero => intro be ctx res hw hc; exact ⟨hc, rfl⟩
  | succ k ih =>
    intro be ctx res hw hc
    -- the state the shot starts from
    obtain ⟨q, j, hprep, hj, hjl, hlq, hpl⟩ : ∃ q j, npPrepare n be.cache ctx = .ok ⟨q, ctx.buf, List.replicate n 0, ctx.saveCache, ctx.rnd⟩ ∧
        be.cacheIdx + 1 = (j : ℕ) ∧ j ≤ gates.length ∧ q.length = 2 ^ n ∧
        ∀ cr r, plainGates F n (gates.take j) ⟨q0 n, cr, r⟩ = .ok ⟨q, cr, r⟩ := by
      rcases hc with ⟨h1, h2⟩ | ⟨j, q, h1, h2, h3, h4, h5⟩
      · refine ⟨q0 n, 0, ?_, by simp [h2], by simp, q0_length n, fun cr r => by simp [plainGates]⟩
        simp [npPrepare, h1, hw.1, q0]
      · exact ⟨q, j, by simp [npPrepare, h1, h4, hw.1], h2, h3, h4, h5⟩
    have hg := npGates_spec n (gates.drop j) (gates.take j) be ⟨q, ctx.buf, List.replicate n 0, ctx.saveCache, ctx.rnd⟩
      ⟨hlq, hw.2⟩ (by simpa using hc) (fun _ => ⟨by simp [hj, hjl], hpl⟩)
    have hsplit : plainGates F n gates ⟨q0 n, List.replicate n 0, ctx.rnd⟩ =
        plainGates F n (gates.drop j) ⟨q, List.replicate n 0, ctx.rnd⟩ := by
      conv_lhs => rw [← List.take_append_drop j gates, plainGates_append]
      rw [hpl]
    have hjn : (be.cacheIdx + 1).toNat = j := by omega
    simp only [List.take_append_drop, NpCtx.core] at hg
    simp only [flShots, plainShots, hprep, hjn, NpCtx.core, hsplit]
    cases hpg : plainGates F n (gates.drop j) ⟨q, List.replicate n 0, ctx.rnd⟩ with
    | error e =>
      rw [hpg] at hg
      obtain ⟨hg1, hg2⟩ := hg
      rcases hr : flGates F n (gates.drop j) be ⟨q, ctx.buf, List.replicate n 0, ctx.saveCache, ctx.rnd⟩ with ⟨be', r⟩
      rw [hr] at hg1 hg2
      simp only at hg2
      subst hg2
      exact ⟨hg1, rfl⟩
    | ok p =>
      rw [hpg] at hg
      obtain ⟨hg1, ctx', hg2, hg3, hg4, -⟩ := hg
      rcases hr : flGates F n (gates.drop j) be ⟨q, ctx.buf, List.replicate n 0, ctx.saveCache, ctx.rnd⟩ with ⟨be', r⟩
      rw [hr] at hg1 hg2
      simp only at hg2
      subst hg2
      have := ih be' ctx' (if ctx'.cregs = [] then res else res.add (cregsKey ctx'.cregs)) hg4 hg1
      subst hg3
      exact this

theorem cacheOK_new (n : ℕ) (gates : List Gate) : CacheOK F n gates NpBackend.new := .inl ⟨rfl, rfl⟩

/-- The invariant kept across changes of the register size: if the cache has the length for `n` qubits, it is
right for `n` qubits. -/
def CacheInv (F : FloatOps) (gates : List Gate) (be : NpBackend) : Prop := ∀ n, CacheOK F n gates (be.clearIfInvalid n)

theorem cacheInv_of_ok {n : ℕ} {gates : List Gate} {be : NpBackend} (h : CacheOK F n gates be) : CacheInv F gates be := by
  intro m
  rcases h with ⟨h1, h2⟩ | ⟨k, q, h1, h2, h3, h4, h5⟩
  · left; simp [NpBackend.clearIfInvalid, h1]
  · by_cases hm : m = n
    · subst hm
      right
      refine ⟨k, q, ?_⟩
      simp [NpBackend.clearIfInvalid, h1, h2, h3, h4, h5]
    · left
      have : (2 : ℕ) ^ n ≠ 2 ^ m := fun h => hm (Nat.pow_right_injective le_rfl h).symm
      simp [NpBackend.clearIfInvalid, h1, h4, this]

theorem cacheOK_append {n : ℕ} {gates : List Gate} {be : NpBackend} (l : List Gate) (h : CacheOK F n gates be) :
    CacheOK F n (gates ++ l) be := by
  rcases h with h | ⟨k, q, h1, h2, h3, h4, h5⟩
  · exact .inl h
  · refine .inr ⟨k, q, h1, h2, by simp; omega, h4, fun cr r => ?_⟩
    rw [List.take_append_of_le_length h3]; exact h5 cr r

theorem npRun_spec (n : ℕ) (gates : List Gate) (shots : ℕ) (be : NpBackend) (h : CacheInv F gates be) (rnd : ℕ → ℝ) :
    CacheInv F gates (flRun F n gates shots be rnd).1 ∧
      (flRun F n gates shots be rnd).2.map (fun x => (x.1.core, x.2)) =
        plainShots F n gates shots (npNewCtx n rnd).core [] := by
  have := npShots_spec n gates shots (be.clearIfInvalid n) (npNewCtx n rnd) [] (by simp [NpCtx.Wf, npNewCtx]) (h n)
  exact ⟨cacheInv_of_ok this.1, this.2⟩

end

end FlNp

end Blueqat
