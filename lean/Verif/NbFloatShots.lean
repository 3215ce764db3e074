import Verif.NbFloatRefine
import Verif.FloatShots

/-! Lemmas: shots and the cache of the compiled numba simulator. -/

set_option linter.unusedSimpArgs false
set_option linter.unusedVariables false

namespace Spec

open Blueqat

noncomputable section

variable {K : NbFloat} {ε ν Θ u : ℝ}

/-- What holds between two gates of a shot: while the cache may be saved, the gates done are unitary and counted, and
the cache is still that of the beginning (with index `c0`); afterwards the cache is for the counted gates. -/
def LoopNear (ε Θ : ℝ) (n : ℕ) (gates done : List Gate) (c0 : ℤ) (L : NbLoop) (s : MState) (B : ℝ) : Prop :=
  (L.save = true → DoneNear ε Θ n done ⟨none, L.idx⟩ s B ∧ CacheNear ε Θ n gates ⟨L.cache, c0⟩) ∧
  (L.save = false → CacheNear ε Θ n gates ⟨L.cache, L.idx⟩)

/-- While the cache may be saved, the state is what a cache for the gates done should contain. -/
theorem cacheNear_done {n : ℕ} {gates done rest : List Gate} (hg : gates = done ++ rest) {i : ℤ} {o : Option Arr} {s : MState}
    {B : ℝ} (h : DoneNear ε Θ n done ⟨o, i⟩ s B) {c : NbCtx} (hR : NbNear n c s B) :
    CacheNear ε Θ n gates ⟨some c.qubits, i⟩ := by
  obtain ⟨hi, fs, a1, a2, a3, a4⟩ := h
  obtain ⟨φ, b1, b2⟩ := FRel.qubits hR
  have b1 : c.qubits = vec n φ := b1
  refine ⟨done, rest, fs, hg, hi, a1, a2, .inr ⟨φ, by rw [b1], ?_⟩⟩
  rw [← a3, ← a4]; exact b2

theorem stops_eq (g : Gate) : g.stopsCache = g.isMeas := by cases g <;> rfl

theorem flNbGates_near {n : ℕ} (hn : n ≤ 64) (hK : NbAccurate K n ε ν Θ) (hν : 0 ≤ ν) (hS : Small ε Θ u)
    (hΘ : Real.pi / 2 ≤ Θ) (gates : List Gate) (c0 : ℤ) : ∀ (rest done : List Gate) (es : List Elem) (L : NbLoop)
    (s : MState) (B : ℝ), gates = done ++ rest → GatesDenote n rest es → (∀ e ∈ es, e.Valid n) → AnglesLE Θ es →
    L.fuse = none → NbNear n L.ctx s B → AllClear ε ν Θ n es s B → LoopNear ε Θ n gates done c0 L s B →
    ∃ L', flNbGates K n rest L = (L', .ok ()) ∧ L'.fuse = none ∧
      NbNear n L'.ctx (steps phSim n es s) (errBound ε ν Θ n es s B) ∧
      LoopNear ε Θ n gates gates c0 L' (steps phSim n es s) (errBound ε ν Θ n es s B) := by
  intro rest
  induction rest with
  | nil =>
    intro done es L s B hg hd hv hA hf hR hc hL
    simp only [GatesDenote] at hd; subst hd
    rw [List.append_nil] at hg; subst hg
    exact ⟨L, rfl, hf, hR, hL⟩
  | cons g rest ih =>
    rintro done es L s B hg ⟨e1, e2, h1, h2, rfl⟩ hv hA hf hR hc hL
    obtain ⟨hc1, hc2⟩ := (allClear_append _ _ _ _ _ _ _ _).1 hc
    obtain ⟨c1, hs1, hR1⟩ := nbRunGate_near hn hK hν hS hΘ g e1 h1 (fun e he => hv e (by simp [he]))
      (fun e he => hA e (by simp [he])) L.ctx s B hR hc1
    have hg' : gates = (done ++ [g]) ++ rest := by rw [hg]; simp
    have hv2 : ∀ e ∈ e2, e.Valid n := fun e he => hv e (by simp [he])
    have hA2 : AnglesLE Θ e2 := fun e he => hA e (by simp [he])
    have hfuse : ¬ (L.fuse = some 0) := by rw [hf]; simp
    rw [steps_append, errBound_append]
    by_cases hm : g.stopsCache = true
    · have hL1 : LoopNear ε Θ n gates (done ++ [g]) c0
          ⟨c1, false, if L.save then some L.ctx.qubits else L.cache, L.idx, none⟩ (steps phSim n e1 s)
          (errBound ε ν Θ n e1 s B) := by
        refine ⟨fun h => by simp at h, fun _ => ?_⟩
        cases hsv : L.save with
        | true => exact cacheNear_done hg (hL.1 hsv).1 hR
        | false => exact hL.2 hsv
      obtain ⟨L', h3, h4, h5, h6⟩ := ih (done ++ [g]) e2 _ _ _ hg' h2 hv2 hA2 rfl hR1 hc2 hL1
      refine ⟨L', ?_, h4, h5, h6⟩
      rw [flNbGates, if_neg hfuse]
      simp only [hm, if_true, hf, Option.map_none, hs1, Bool.false_eq_true, if_false]
      exact h3
    · have hm' : g.isMeas = false := by rw [← stops_eq]; simpa using hm
      have hu1 := unitary_of_notMeas hm' h1
      have hL1 : LoopNear ε Θ n gates (done ++ [g]) c0
          ⟨c1, L.save, L.cache, if L.save then L.idx + 1 else L.idx, none⟩ (steps phSim n e1 s)
          (errBound ε ν Θ n e1 s B) := by
        refine ⟨fun hsv => ⟨?_, (hL.1 hsv).2⟩, fun hsv => ?_⟩
        · have hsv : L.save = true := hsv
          obtain ⟨hidx, fs, hfs, hfu, hpsi, hBeq⟩ := (hL.1 hsv).1
          have hidx : L.idx + 1 = done.length := hidx
          refine ⟨by simp [hsv, hidx], fs ++ e1, gatesDenote_append hfs ⟨e1, [], h1, rfl, by simp⟩, ?_, ?_, ?_⟩
          · intro e he
            rcases List.mem_append.1 he with h | h
            · exact hfu e h
            · exact hu1 e h
          · rw [steps_unitary phSim n e1 hu1]
            simp only [hpsi, unitaries_append]
          · rw [errBound_unitary _ _ _ _ _ hu1, hBeq, passes_append, pow_add]; ring
        · have hsv : L.save = false := hsv
          simp only [hsv, Bool.false_eq_true, if_false]
          exact hL.2 hsv
      obtain ⟨L', h3, h4, h5, h6⟩ := ih (done ++ [g]) e2 _ _ _ hg' h2 hv2 hA2 rfl hR1 hc2 hL1
      refine ⟨L', ?_, h4, h5, h6⟩
      rw [flNbGates, if_neg hfuse]
      simp only [hm, if_false, hf, Option.map_none, hs1, Bool.false_eq_true]
      exact h3

/-- One shot. -/
theorem nbShot_near {n : ℕ} (hn : n ≤ 64) (hK : NbAccurate K n ε ν Θ) (hν : 0 ≤ ν) (hS : Small ε Θ u)
    (hΘ : Real.pi / 2 ≤ Θ) {gates : List Gate} {es : List Elem} (hd : GatesDenote n gates es) (hv : ∀ e ∈ es, e.Valid n)
    (hA : AnglesLE Θ es) (be : NbBackend) (ctx : NbCtx) (save : Bool) (hq : ctx.qubits.length = 2 ^ n) (hr : InUnit ctx.rnd)
    (hc : AllClear ε ν Θ n es (initState ctx.rnd) 0) (hbe : CacheNear ε Θ n gates ⟨be.cache, be.cacheIdx⟩) :
    ∃ c L, nbPrepare n be.cache ctx = .ok c ∧
      flNbGates K n (gates.drop (be.cacheIdx + 1).toNat) ⟨c, save, be.cache, be.cacheIdx, none⟩ = (L, .ok ()) ∧
      L.fuse = none ∧
      NbNear n L.ctx (steps phSim n es (initState ctx.rnd)) (errBound ε ν Θ n es (initState ctx.rnd) 0) ∧
      CacheNear ε Θ n gates (if be.cacheIdx ≠ L.idx then ⟨if L.save then some L.ctx.qubits else L.cache, L.idx⟩
        else ⟨L.cache, be.cacheIdx⟩) := by
  obtain ⟨done, rest, fs, hg, hidx, hfs, hfu, hcache⟩ := id hbe
  have hidx : be.cacheIdx + 1 = done.length := hidx
  have hdrop : gates.drop (be.cacheIdx + 1).toNat = rest := by
    rw [hidx, Int.toNat_natCast, hg, List.drop_left]
  obtain ⟨e1, e2, h1, h2, rfl⟩ := gatesDenote_append_iff.1 (hg ▸ hd)
  obtain rfl := gatesDenote_unique hfs h1
  obtain ⟨hc1, hc2⟩ := (allClear_append _ _ _ _ _ _ _ _).1 hc
  have hgood : Good n (steps phSim n fs (initState ctx.rnd)) :=
    good_steps norm_phSim fs (fun e he => hv e (by simp [he])) _ (good_init n ctx.rnd hr)
  have hpsi : (steps phSim n fs (initState ctx.rnd)) = ⟨unitaries phSim fs zeroVec, (initState ctx.rnd).creg, ctx.rnd⟩ := by
    rw [steps_unitary phSim n fs hfu]; rfl
  have hB : errBound ε ν Θ n fs (initState ctx.rnd) 0 = (1 + passErr ε Θ) ^ passes fs - 1 := by
    rw [errBound_unitary _ _ _ _ _ hfu]; ring
  obtain ⟨φ, hprep, hgap⟩ : ∃ φ, nbPrepare n be.cache ctx = .ok ⟨vec n φ, List.replicate n 0, ctx.rnd⟩ ∧
      gap n φ (unitaries phSim fs zeroVec) ≤ (1 + passErr ε Θ) ^ passes fs - 1 := by
    rcases hcache with ⟨hnone, rfl⟩ | ⟨φ, hs, hφ⟩
    · have hnone : be.cache = none := hnone
      simp only [GatesDenote] at hfs; subst hfs
      refine ⟨zeroVec, ?_, ?_⟩
      · rw [hnone, ← q0_vec]; simp only [nbPrepare, hq, q0]
      · simp [unitaries, passes, gap_self]
    · have hs : be.cache = some (vec n φ) := hs
      refine ⟨φ, ?_, hφ⟩
      rw [hs]; simp [nbPrepare, hq]
  rw [hdrop, steps_append, errBound_append]
  obtain ⟨L, h3, h4, h5, h6⟩ := flNbGates_near hn hK hν hS hΘ gates be.cacheIdx rest done e2
    ⟨⟨vec n φ, List.replicate n 0, ctx.rnd⟩, save, be.cache, be.cacheIdx, none⟩ (steps phSim n fs (initState ctx.rnd))
    (errBound ε ν Θ n fs (initState ctx.rnd) 0) hg h2 (fun e he => hv e (by simp [he])) (fun e he => hA e (by simp [he]))
    rfl ⟨⟨φ, rfl, by rw [hB, hpsi]; exact hgap⟩, by simp [withBuf], by rw [hpsi]; exact cregList_init n ctx.rnd,
      by rw [hpsi]; rfl, hgood⟩ hc2
    ⟨fun _ => ⟨⟨hidx, fs, hfs, hfu, by rw [hpsi], hB⟩, hbe⟩, fun _ => hbe⟩
  refine ⟨_, L, hprep, h3, h4, h5, ?_⟩
  cases hsv : L.save with
  | true =>
    by_cases hi : be.cacheIdx ≠ L.idx
    · rw [if_pos hi]
      exact cacheNear_done (rest := []) (by simp) (h6.1 hsv).1 h5
    · rw [if_neg hi]; exact (h6.1 hsv).2
  | false =>
    by_cases hi : be.cacheIdx ≠ L.idx
    · rw [if_pos hi]; exact h6.2 hsv
    · rw [if_neg hi]; push Not at hi; rw [hi]; exact h6.2 hsv

theorem flNbShots_near {n : ℕ} (hn : n ≤ 64) (hK : NbAccurate K n ε ν Θ) (hν : 0 ≤ ν) (hS : Small ε Θ u)
    (hΘ : Real.pi / 2 ≤ Θ) {gates : List Gate} {es : List Elem} (hd : GatesDenote n gates es) (hv : ∀ e ∈ es, e.Valid n)
    (hA : AnglesLE Θ es) (k : ℕ) : ∀ (be : NbBackend) (ctx : NbCtx) (save : Bool) (res : Counter),
    ctx.qubits.length = 2 ^ n → InUnit ctx.rnd → ShotsClear ε ν Θ n es k ctx.rnd →
    CacheNear ε Θ n gates ⟨be.cache, be.cacheIdx⟩ →
    ∃ be' ctx' res', flNbShots K n gates k be ctx save none res = (be', .ok (ctx', res')) ∧
      CacheNear ε Θ n gates ⟨be'.cache, be'.cacheIdx⟩ ∧
      (∀ (j : ℕ) (r : ℕ → ℝ), k = j + 1 → ((ctx.rnd :: (shotStates phSim n es j ctx.rnd).map MState.rnd).getLast? = some r) →
        NbNear n ctx' (steps phSim n es (initState r)) (errBound ε ν Θ n es (initState r) 0)) ∧
      (0 < n → ∀ key, countOf res' key = countOf res key +
        (shotStates phSim n es k ctx.rnd).countP (fun s => decide (bitString n s.creg = key))) := by
  induction k with
  | zero =>
    intro be ctx save res _ _ _ hbe
    exact ⟨be, ctx, res, rfl, hbe, by omega, by simp [shotStates]⟩
  | succ k ih =>
    rintro be ctx save res hq hr ⟨hc1, hc2⟩ hbe
    obtain ⟨c, L, h1, h2, hf, hR, h3⟩ := nbShot_near hn hK hν hS hΘ hd hv hA be ctx save hq hr hc1 hbe
    have hlen : L.ctx.qubits.length = 2 ^ n := (FRel.lengths hR).1
    have hrnd : L.ctx.rnd = (steps phSim n es (initState ctx.rnd)).rnd := FRel.rnd hR
    have hcr : L.ctx.cregs = cregList n (steps phSim n es (initState ctx.rnd)).creg := FRel.cregs hR
    have hr1 : InUnit L.ctx.rnd := fun k => by rw [hrnd]; exact (FRel.good hR).2 k
    obtain ⟨be2, c2, res2, h4, h5, h6, h7⟩ := ih
      (if be.cacheIdx ≠ L.idx then ⟨if L.save then some L.ctx.qubits else L.cache, L.idx⟩ else ⟨L.cache, be.cacheIdx⟩)
      L.ctx L.save (if L.ctx.cregs = [] then res else res.add (cregsKey L.ctx.cregs))
      hlen hr1 (by rw [hrnd]; exact hc2) (by
        by_cases hi : be.cacheIdx ≠ L.idx
        · rw [if_pos hi] at h3 ⊢; exact h3
        · rw [if_neg hi] at h3 ⊢; exact h3)
    refine ⟨be2, c2, res2, by simp only [flNbShots, h1, h2, hf]; exact h4, h5, ?_, ?_⟩
    · intro j r hj hlast
      obtain rfl : k = j := by omega
      cases k with
      | zero =>
        simp only [shotStates, List.map_nil, List.getLast?_singleton, Option.some.injEq] at hlast
        subst hlast
        simp only [flNbShots, Prod.mk.injEq, Except.ok.injEq] at h4
        obtain ⟨-, h4, -⟩ := h4
        rw [← h4]; exact hR
      | succ k =>
        refine h6 k r rfl ?_
        rw [hrnd]
        simp only [shotStates, List.map_cons] at hlast
        rw [List.getLast?_cons_cons] at hlast
        exact hlast
    · intro hn key
      have hne : L.ctx.cregs ≠ [] := by rw [hcr]; simp [cregList]; omega
      rw [h7 hn key, if_neg hne, counter_add_count, hcr, cregsKey_cregList, hrnd]
      simp only [shotStates, List.countP_cons]
      by_cases hk : key = bitString n (steps phSim n es (initState ctx.rnd)).creg
      · simp [hk]; omega
      · simp [hk, Ne.symm hk]

end

end Spec
