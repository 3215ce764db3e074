import Verif.FloatRefine
import Verif.NpShots

/-! Lemmas: shots and the cache in rounded arithmetic. -/

set_option linter.unusedSimpArgs false
set_option linter.unusedVariables false

namespace Spec

open Blueqat

noncomputable section

variable {F : FloatOps} {ε ν Θ u : ℝ}

/-! ## The flag -/

/-- The action does not set the flag. -/
def KeepsFlag (a : NpCtx → Except PyErr NpCtx) : Prop :=
  ∀ ctx ctx', a ctx = .ok ctx' → ctx'.saveCache = true → ctx.saveCache = true

theorem keeps_swapLoop1 (body) (n : ℕ) (T : Targets) : KeepsFlag (swapLoop1 body n T) := by
  intro ctx ctx' h hs
  simp only [swapLoop1] at h
  split at h
  · cases h
  · cases h; exact hs

theorem keeps_swapLoop2 (body) (n : ℕ) (T : Targets) : KeepsFlag (swapLoop2 body n T) := by
  intro ctx ctx' h hs
  simp only [swapLoop2] at h
  split at h
  · cases h
  · cases h; exact hs

theorem keeps_inPlaceLoop1 (body) (n : ℕ) (T : Targets) : KeepsFlag (inPlaceLoop1 body n T) := by
  intro ctx ctx' h hs
  simp only [inPlaceLoop1] at h
  split at h
  · cases h
  · cases h; exact hs

theorem keeps_inPlaceLoop2 (body) (n : ℕ) (T : Targets) : KeepsFlag (inPlaceLoop2 body n T) := by
  intro ctx ctx' h hs
  simp only [inPlaceLoop2] at h
  split at h
  · cases h
  · cases h; exact hs

theorem except_bind_ok {α β : Type} {x : Except PyErr α} {f : α → Except PyErr β} {b : β} (h : (x >>= f) = .ok b) :
    ∃ a, x = .ok a ∧ f a = .ok b := by
  cases x with
  | error e => cases h
  | ok a => exact ⟨a, rfl, h⟩

theorem keeps_ccz (n : ℕ) (T : Targets) : KeepsFlag (flGateCCZ F n T) := by
  intro ctx ctx' h hs
  simp only [flGateCCZ] at h
  obtain ⟨_, -, h⟩ := except_bind_ok h
  obtain ⟨_, -, h⟩ := except_bind_ok h
  obtain ⟨_, -, h⟩ := except_bind_ok h
  obtain ⟨_, -, h⟩ := except_bind_ok h
  cases h; exact hs

theorem keeps_ccx (n : ℕ) (T : Targets) : KeepsFlag (flGateCCX F n T) := by
  intro ctx ctx' h hs
  simp only [flGateCCX] at h
  obtain ⟨_, -, h⟩ := except_bind_ok h
  obtain ⟨c1, h1, h⟩ := except_bind_ok h
  obtain ⟨c2, h2, h⟩ := except_bind_ok h
  exact keeps_swapLoop1 _ _ _ _ _ h1 (keeps_ccz _ _ _ _ h2 (keeps_swapLoop1 _ _ _ _ _ h hs))

theorem clears_measure (n : ℕ) (T : Targets) (ctx ctx' : NpCtx) (h : flGateMeasure F n T ctx = .ok ctx') :
    ctx'.saveCache = false := by
  simp only [flGateMeasure] at h
  split at h
  · cases h
  · cases h; rfl

theorem clears_reset (n : ℕ) (T : Targets) (ctx ctx' : NpCtx) (h : flGateReset F n T ctx = .ok ctx') :
    ctx'.saveCache = false := by
  simp only [flGateReset] at h
  split at h
  · cases h
  · cases h; rfl

theorem flAction_keeps {n : ℕ} {g : Gate} {a : NpCtx → Except PyErr NpCtx} (ha : flAction F n g = some a) : KeepsFlag a := by
  rcases g with ⟨k, T⟩ | ⟨k, T⟩ | ⟨k, T⟩ | T | T
  · cases k <;> simp only [flAction, Option.some.injEq, reduceCtorEq] at ha <;> subst ha <;>
      first | exact keeps_swapLoop1 _ _ _ | exact keeps_inPlaceLoop1 _ _ _
  · cases k <;> simp only [flAction, Option.some.injEq, reduceCtorEq] at ha <;> subst ha <;>
      first | exact keeps_swapLoop2 _ _ _ | exact keeps_inPlaceLoop2 _ _ _
  · cases k <;> simp only [flAction, Option.some.injEq, reduceCtorEq] at ha <;> subst ha <;>
      first | exact keeps_ccx _ _ | exact keeps_ccz _ _
  · simp only [flAction, Option.some.injEq] at ha; subst ha
    intro ctx ctx' h hs; rw [clears_measure n T ctx ctx' h] at hs; cases hs
  · simp only [flAction, Option.some.injEq] at ha; subst ha
    intro ctx ctx' h hs; rw [clears_reset n T ctx ctx' h] at hs; cases hs

theorem foldlM_keeps {α : Type} (f : NpCtx → α → Except PyErr NpCtx) (h : ∀ a, KeepsFlag fun c => f c a) (L : List α) :
    KeepsFlag fun c => L.foldlM f c := by
  induction L with
  | nil => intro ctx ctx' hc hs; cases hc; exact hs
  | cons a L ih =>
    intro ctx ctx' hc hs
    simp only [List.foldlM_cons] at hc
    obtain ⟨c1, h1, h2⟩ := except_bind_ok hc
    exact h a _ _ h1 (ih _ _ h2 hs)

theorem runGate_keeps {n : ℕ} (fuel : ℕ) : ∀ g, KeepsFlag (runGate (flAction F n) n fuel g) := by
  induction fuel with
  | zero => intro g ctx ctx' h; simp [runGate] at h
  | succ fuel ih =>
    intro g ctx ctx' h hs
    simp only [runGate] at h
    cases ha : flAction F n g with
    | some a => rw [ha] at h; exact flAction_keeps ha _ _ h hs
    | none =>
      rw [ha] at h
      simp only at h
      split at h
      · cases h
      · exact foldlM_keeps _ (fun g' => ih g') _ _ _ h hs

theorem runGate_meas {n : ℕ} {g : Gate} (hm : g.isMeas = true) {ctx ctx' : NpCtx}
    (h : runGate (flAction F n) n recursionLimit g ctx = .ok ctx') : ctx'.saveCache = false := by
  cases g with
  | measure T => exact clears_measure n T ctx ctx' h
  | reset T => exact clears_reset n T ctx ctx' h
  | g1 k T => simp [Gate.isMeas] at hm
  | g2 k T => simp [Gate.isMeas] at hm
  | g3 k T => simp [Gate.isMeas] at hm

theorem unitary_of_notMeas {n : ℕ} {g : Gate} {es : List Elem} (hm : g.isMeas = false) (hd : GateDenotes n g es) :
    ∀ e ∈ es, e.IsUnitary := by
  cases g with
  | measure T => simp [Gate.isMeas] at hm
  | reset T => simp [Gate.isMeas] at hm
  | g1 k T => obtain ⟨L, -, rfl⟩ := hd; simp [Elem.IsUnitary]
  | g2 k T => obtain ⟨L, -, rfl⟩ := hd; exact unitary_two k L
  | g3 k T => obtain ⟨a, b, c, -, rfl⟩ := hd; simp [Elem.IsUnitary]

/-! ## The cache -/

/-- The all-zero state. -/
def zeroVec : Vec := fun i => if i = 0 then 1 else 0

/-- The cache is near the state after the gates it is for. -/
def CacheNear (ε Θ : ℝ) (n : ℕ) (gates : List Gate) (be : NpBackend) : Prop :=
  ∃ done rest fs, gates = done ++ rest ∧ be.cacheIdx + 1 = done.length ∧ GatesDenote n done fs ∧ (∀ e ∈ fs, e.IsUnitary) ∧
    ((be.cache = none ∧ done = []) ∨ ∃ φ, be.cache = some (vec n φ) ∧
      gap n φ (unitaries phSim fs zeroVec) ≤ (1 + passErr ε Θ) ^ passes fs - 1)

theorem cacheNear_new (ε Θ : ℝ) (n : ℕ) (gates : List Gate) : CacheNear ε Θ n gates NpBackend.new :=
  ⟨[], gates, [], rfl, rfl, rfl, by simp, .inl ⟨rfl, rfl⟩⟩

/-- While the flag is set, the gates done so far are unitary and the backend counts them. -/
def DoneNear (ε Θ : ℝ) (n : ℕ) (done : List Gate) (be : NpBackend) (s : MState) (B : ℝ) : Prop :=
  be.cacheIdx + 1 = done.length ∧ ∃ fs, GatesDenote n done fs ∧ (∀ e ∈ fs, e.IsUnitary) ∧
    s.psi = unitaries phSim fs zeroVec ∧ B = (1 + passErr ε Θ) ^ passes fs - 1

theorem flGates_float {n : ℕ} (hF : Accurate F n ε ν) (hν : 0 ≤ ν) (hS : Small ε Θ u) (hΘ : Real.pi / 2 ≤ Θ) 
    (gates : List Gate) : ∀ (rest done : List Gate) (es : List Elem) (be : NpBackend) (ctx : NpCtx) (s : MState) (B : ℝ),
    gates = done ++ rest → GatesDenote n rest es → (∀ e ∈ es, e.Valid n) → AnglesLE Θ es →
    FRel n ctx s B → AllClear ε ν Θ n es s B → CacheNear ε Θ n gates be →
    (ctx.saveCache = true → DoneNear ε Θ n done be s B) →
    ∃ be' ctx', flGates F n rest be ctx = (be', .ok ctx') ∧ CacheNear ε Θ n gates be' ∧
      FRel n ctx' (steps phSim n es s) (errBound ε ν Θ n es s B) := by
  intro rest
  induction rest with
  | nil =>
    intro done es be ctx s B hg hd hv hA hR hc hb hf
    simp only [GatesDenote] at hd; subst hd
    exact ⟨be, ctx, rfl, hb, hR⟩
  | cons g rest ih =>
    rintro done es be ctx s B hg ⟨e1, e2, h1, h2, rfl⟩ hv hA hR hc hb hf
    obtain ⟨hc1, hc2⟩ := (allClear_append _ _ _ _ _ _ _ _).1 hc
    obtain ⟨c1, hs1, hR1⟩ := runGate_float hF hν hS hΘ recursionLimit g
      (by have := rank_le g; simp only [recursionLimit]; omega) e1 h1 (fun e he => hv e (by simp [he]))
      (fun e he => hA e (by simp [he])) ctx s B hR hc1
    have hg' : gates = (done ++ [g]) ++ rest := by rw [hg]; simp
    have hv2 : ∀ e ∈ e2, e.Valid n := fun e he => hv e (by simp [he])
    have hA2 : AnglesLE Θ e2 := fun e he => hA e (by simp [he])
    rw [steps_append, errBound_append]
    by_cases hsv : c1.saveCache = true
    · obtain ⟨hidx, fs, hfs, hfu, hpsi, hBeq⟩ := hf (runGate_keeps _ _ _ _ hs1 hsv)
      have hm : g.isMeas = false := by
        by_contra h
        rw [runGate_meas (by simpa using h) hs1] at hsv; cases hsv
      have hu1 := unitary_of_notMeas hm h1
      have hD : DoneNear ε Θ n (done ++ [g]) ⟨some c1.qubits, be.cacheIdx + 1⟩ (steps phSim n e1 s)
          (errBound ε ν Θ n e1 s B) := by
        refine ⟨by simp [hidx], fs ++ e1, gatesDenote_append hfs ⟨e1, [], h1, rfl, by simp⟩, ?_, ?_, ?_⟩
        · intro e he
          rcases List.mem_append.1 he with h | h
          · exact hfu e h
          · exact hu1 e h
        · rw [steps_unitary phSim n e1 hu1]
          simp only [hpsi, unitaries_append]
        · rw [errBound_unitary _ _ _ _ _ hu1, hBeq, passes_append, pow_add]; ring
      obtain ⟨be', ctx', h3, h4, h5⟩ := ih (done ++ [g]) e2 ⟨some c1.qubits, be.cacheIdx + 1⟩ c1 _ _ hg' h2 hv2 hA2 hR1 hc2
        (by
          obtain ⟨hi, fs', a1, a2, a3, a4⟩ := hD
          obtain ⟨φ, b1, b2⟩ := hR1.qubits
          refine ⟨done ++ [g], rest, fs', hg', hi, a1, a2, .inr ⟨φ, by rw [b1], ?_⟩⟩
          rw [← a3, ← a4]; exact b2) (fun _ => hD)
      exact ⟨be', ctx', by simp only [flGates, hs1, hsv, if_true]; exact h3, h4, h5⟩
    · obtain ⟨be', ctx', h3, h4, h5⟩ := ih (done ++ [g]) e2 be c1 _ _ hg' h2 hv2 hA2 hR1 hc2 hb
        (fun h => absurd h hsv)
      exact ⟨be', ctx', by simp only [flGates, hs1, hsv, if_false]; exact h3, h4, h5⟩

theorem q0_vec (n : ℕ) : q0 n = vec n zeroVec := by
  have := (pRel_init (P := False) n (fun _ => 0) (fun h => h.elim)).q
  exact this

theorem normSqN_zero (n : ℕ) : normSqN n zeroVec = 1 := by
  rw [normSqN, Finset.sum_eq_single 0]
  · simp [zeroVec]
  · intro k _ hk; simp [zeroVec, hk]
  · intro h; exact absurd (Finset.mem_range.2 (by positivity)) h

theorem cregList_init (n : ℕ) (rnd : ℕ → ℝ) : List.replicate n 0 = cregList n (initState rnd).creg := by
  simp [cregList, initState]

/-- One shot. -/
theorem shot_float {n : ℕ} (hF : Accurate F n ε ν) (hν : 0 ≤ ν) (hS : Small ε Θ u) (hΘ : Real.pi / 2 ≤ Θ) 
    {gates : List Gate} {es : List Elem} (hd : GatesDenote n gates es) (hv : ∀ e ∈ es, e.Valid n) (hA : AnglesLE Θ es)
    (be : NpBackend) (ctx : NpCtx) (hq : ctx.qubits.length = 2 ^ n) (hb : ctx.buf.length = 2 ^ n) (hr : InUnit ctx.rnd)
    (hc : AllClear ε ν Θ n es (initState ctx.rnd) 0) (hbe : CacheNear ε Θ n gates be) :
    ∃ c be' ctx', npPrepare n be.cache ctx = .ok c ∧
      flGates F n (gates.drop (be.cacheIdx + 1).toNat) be c = (be', .ok ctx') ∧ CacheNear ε Θ n gates be' ∧
      FRel n ctx' (steps phSim n es (initState ctx.rnd)) (errBound ε ν Θ n es (initState ctx.rnd) 0) := by
  obtain ⟨done, rest, fs, hg, hidx, hfs, hfu, hcache⟩ := id hbe
  have hdrop : gates.drop (be.cacheIdx + 1).toNat = rest := by
    rw [hidx, Int.toNat_natCast, hg, List.drop_left]
  obtain ⟨e1, e2, h1, h2, rfl⟩ := gatesDenote_append_iff.1 (hg ▸ hd)
  obtain rfl := gatesDenote_unique hfs h1
  obtain ⟨hc1, hc2⟩ := (allClear_append _ _ _ _ _ _ _ _).1 hc
  have hgood : Good n (steps phSim n fs (initState ctx.rnd)) :=
    good_steps norm_phSim fs (fun e he => hv e (by simp [he])) _ (good_init n ctx.rnd hr)
  have hpsi : (steps phSim n fs (initState ctx.rnd)) = ⟨unitaries phSim fs zeroVec, (initState ctx.rnd).creg, ctx.rnd⟩ := by
    rw [steps_unitary phSim n fs hfu]; rfl
  have hB : errBound ε ν Θ n fs (initState ctx.rnd) 0 = (1 + passErr ε Θ) ^ passes fs - 1 := by
    rw [errBound_unitary _ _ _ _ _ hfu]; ring
  obtain ⟨φ, hprep, hgap⟩ : ∃ φ, npPrepare n be.cache ctx =
      .ok ⟨vec n φ, ctx.buf, List.replicate n 0, ctx.saveCache, ctx.rnd⟩ ∧
      gap n φ (unitaries phSim fs zeroVec) ≤ (1 + passErr ε Θ) ^ passes fs - 1 := by
    rcases hcache with ⟨hn, rfl⟩ | ⟨φ, hs, hφ⟩
    · simp only [GatesDenote] at hfs; subst hfs
      refine ⟨zeroVec, ?_, ?_⟩
      · rw [hn, ← q0_vec]; simp only [npPrepare, hq, q0]
      · simp [unitaries, passes, gap_self]
    · refine ⟨φ, ?_, hφ⟩
      rw [hs]; simp [npPrepare, hq]
  rw [hdrop, steps_append, errBound_append]
  obtain ⟨be', ctx', h3, h4, h5⟩ := flGates_float hF hν hS hΘ gates rest done e2 be
    ⟨vec n φ, ctx.buf, List.replicate n 0, ctx.saveCache, ctx.rnd⟩ (steps phSim n fs (initState ctx.rnd))
    (errBound ε ν Θ n fs (initState ctx.rnd) 0) hg h2 (fun e he => hv e (by simp [he])) (fun e he => hA e (by simp [he]))
    ⟨⟨φ, rfl, by rw [hB, hpsi]; exact hgap⟩, hb, by rw [hpsi]; exact cregList_init n ctx.rnd, by rw [hpsi], hgood⟩ hc2 hbe
    (fun _ => ⟨hidx, fs, hfs, hfu, by rw [hpsi], hB⟩)
  exact ⟨_, be', ctx', hprep, h3, h4, h5⟩

theorem FRel.lengths {n : ℕ} {ctx : NpCtx} {s : MState} {B : ℝ} (h : FRel n ctx s B) :
    ctx.qubits.length = 2 ^ n ∧ ctx.buf.length = 2 ^ n := by
  obtain ⟨φ, h1, -⟩ := h.qubits
  exact ⟨by rw [h1]; simp, h.buf⟩

/-- What is said about the last shot. -/
theorem flShots_float {n : ℕ} (hF : Accurate F n ε ν) (hν : 0 ≤ ν) (hS : Small ε Θ u) (hΘ : Real.pi / 2 ≤ Θ) 
    {gates : List Gate} {es : List Elem} (hd : GatesDenote n gates es) (hv : ∀ e ∈ es, e.Valid n) (hA : AnglesLE Θ es)
    (k : ℕ) : ∀ (be : NpBackend) (ctx : NpCtx) (res : Counter), ctx.qubits.length = 2 ^ n → ctx.buf.length = 2 ^ n →
    InUnit ctx.rnd → ShotsClear ε ν Θ n es k ctx.rnd → CacheNear ε Θ n gates be →
    ∃ be' ctx' res', flShots F n gates k be ctx res = (be', .ok (ctx', res')) ∧ CacheNear ε Θ n gates be' ∧
      (∀ (j : ℕ) (r : ℕ → ℝ), k = j + 1 → ((ctx.rnd :: (shotStates phSim n es j ctx.rnd).map MState.rnd).getLast? = some r) →
        FRel n ctx' (steps phSim n es (initState r)) (errBound ε ν Θ n es (initState r) 0)) ∧
      (0 < n → ∀ key, countOf res' key = countOf res key +
        (shotStates phSim n es k ctx.rnd).countP (fun s => decide (bitString n s.creg = key))) := by
  induction k with
  | zero =>
    intro be ctx res _ _ _ _ hbe
    exact ⟨be, ctx, res, rfl, hbe, by omega, by simp [shotStates]⟩
  | succ k ih =>
    rintro be ctx res hq hb hr ⟨hc1, hc2⟩ hbe
    obtain ⟨c, be1, c1, h1, h2, h3, hR⟩ := shot_float hF hν hS hΘ hd hv hA be ctx hq hb hr hc1 hbe
    have hlen := hR.lengths
    have hr1 : InUnit c1.rnd := fun k => by rw [hR.rnd]; exact hR.good.2 k
    obtain ⟨be2, c2, res2, h4, h5, h6, h7⟩ := ih be1 c1 (if c1.cregs = [] then res else res.add (cregsKey c1.cregs))
      hlen.1 hlen.2 hr1 (by rw [hR.rnd]; exact hc2) h3
    refine ⟨be2, c2, res2, by simp only [flShots, h1, h2]; exact h4, h5, ?_, ?_⟩
    · intro j r hj hlast
      obtain rfl : k = j := by omega
      cases k with
      | zero =>
        simp only [shotStates, List.map_nil, List.getLast?_singleton, Option.some.injEq] at hlast
        subst hlast
        simp only [flShots, Prod.mk.injEq, Except.ok.injEq] at h4
        obtain ⟨-, h4, -⟩ := h4
        rw [← h4]; exact hR
      | succ k =>
        refine h6 k r rfl ?_
        rw [hR.rnd]
        simp only [shotStates, List.map_cons] at hlast
        rw [List.getLast?_cons_cons] at hlast
        exact hlast
    · intro hn key
      have hne : c1.cregs ≠ [] := by rw [hR.cregs]; simp [cregList]; omega
      rw [h7 hn key, if_neg hne, counter_add_count, hR.cregs, cregsKey_cregList, hR.rnd]
      simp only [shotStates, List.countP_cons]
      by_cases hk : key = bitString n (steps phSim n es (initState ctx.rnd)).creg
      · simp [hk]; omega
      · simp [hk, Ne.symm hk]

end

end Spec
