import Verif.NpCreg
import Verif.Spec.Run

/-!
# C08, C09, C14, C15, C16, C57: the numpy simulator
-/

set_option linter.unusedSimpArgs false
set_option linter.unusedVariables false

namespace Blueqat

open Spec

/-! ## C08 -/

theorem elem_phSim (e : Elem) : ∃ z : ℂ, ‖z‖ = 1 ∧ (¬ e.IsCu1 → z = 1) ∧
    ∀ ψ, e.unitary phSim ψ = fun i => z * e.unitary phDoc ψ i := by
  by_cases h : e.IsCu1
  · match e, h with
    | .two (.cu1 lam) c t, _ =>
      refine ⟨phSim lam, norm_phSim lam, fun h => absurd trivial h, fun ψ => ?_⟩
      simp [Elem.unitary, op2, phDoc]
  · refine ⟨1, by simp, fun _ => rfl, fun ψ => ?_⟩
    simp only [one_mul]
    cases e with
    | two k c t => cases k <;> first | rfl | exact absurd trivial h
    | one k t => rfl
    | three k a b c => rfl
    | meas t => rfl
    | reset t => rfl

theorem unitaries_phSim (es : List Elem) : ∃ z : ℂ, ‖z‖ = 1 ∧ ((∀ e ∈ es, ¬ e.IsCu1) → z = 1) ∧
    ∀ ψ, unitaries phSim es ψ = fun i => z * unitaries phDoc es ψ i := by
  induction es with
  | nil => exact ⟨1, by simp, fun _ => rfl, fun ψ => by simp [unitaries]⟩
  | cons e es ih =>
    obtain ⟨z1, h1, h2, h3⟩ := elem_phSim e
    obtain ⟨z2, k1, k2, k3⟩ := ih
    refine ⟨z2 * z1, by simp [h1, k1], fun h => by rw [h2 (h e (by simp)), k2 (fun e he => h e (by simp [he]))]; simp,
      fun ψ => ?_⟩
    have : ∀ ph, unitaries ph (e :: es) ψ = unitaries ph es (e.unitary ph ψ) := fun ph => rfl
    rw [this, this, h3, unitaries_smul, k3]
    funext i; ring

/-- A unitary gate on a context with any classical register. -/
theorem npRunGate_state (n : ℕ) (g : Gate) (es : List Elem) (hd : GateDenotes n g es) (hv : ∀ e ∈ es, e.Valid n)
    (hu : ∀ e ∈ es, e.IsUnitary) (ψ : Vec) (buf : Arr) (hbuf : buf.length = 2 ^ n) (cregs : List ℕ) (save : Bool)
    (rnd : ℕ → ℝ) :
    ∃ (buf' : Arr) (save' : Bool), buf'.length = 2 ^ n ∧
      npRunGate n g ⟨vec n ψ, buf, cregs, save, rnd⟩ =
        .ok ⟨vec n (unitaries phSim es ψ), buf', cregs, save', rnd⟩ := by
  obtain ⟨p', hp', hr⟩ := plainGate_refine (P := False) g es hd hv (fun e he => .inr (hu e he))
    ⟨vec n ψ, cregList n (fun _ => false), rnd⟩ ⟨ψ, fun _ => false, rnd⟩ ⟨rfl, rfl, rfl, fun h => h.elim⟩
  rw [steps_unitary phSim n es hu] at hr
  have hq : plainGate n g ⟨vec n ψ, cregs, rnd⟩ = .ok ⟨vec n (unitaries phSim es ψ), cregs, rnd⟩ := by
    by_cases hg : g.isMeas = false
    · obtain ⟨U0, hU⟩ := plainGate_nomeas n g hg
      rw [hU] at hp' ⊢
      cases hx : U0 (vec n ψ) with
      | error e => simp only [hx] at hp'; cases hp'
      | ok q =>
        simp only [hx] at hp' ⊢
        cases hp'
        have := hr.q
        simp only at this
        rw [← this]; rfl
    · have hnil : es = [] := by
        cases g with
        | measure T =>
          obtain ⟨L, -, rfl⟩ := hd
          cases L with
          | nil => rfl
          | cons t L => exact absurd (hu (.meas t) (by simp)) (by simp [Elem.IsUnitary])
        | reset T =>
          obtain ⟨L, -, rfl⟩ := hd
          cases L with
          | nil => rfl
          | cons t L => exact absurd (hu (.reset t) (by simp)) (by simp [Elem.IsUnitary])
        | g1 k T => simp [Gate.isMeas] at hg
        | g2 k T => simp [Gate.isMeas] at hg
        | g3 k T => simp [Gate.isMeas] at hg
      subst hnil
      let c : NpCtx := ⟨vec n ψ, List.replicate (2 ^ n) 0, cregs, true, rnd⟩
      have hw : c.Wf n := by simp [NpCtx.Wf, c]
      have hm := plainGate_match n g c hw
      have hcore : c.core = ⟨vec n ψ, cregs, rnd⟩ := rfl
      rw [hcore] at hm
      have hrun : npRunGate n g c = .ok { c with saveCache := false } := by
        cases g with
        | measure T =>
          obtain ⟨L, hL, hnil⟩ := hd
          rw [List.nil_eq, List.map_eq_nil_iff] at hnil
          subst hnil
          rw [← slicing_eq_iff] at hL
          rw [npRunGate_measure]
          simp only [npGateMeasure, forGen, hL, List.map_nil, List.foldlM_nil]; rfl
        | reset T =>
          obtain ⟨L, hL, hnil⟩ := hd
          rw [List.nil_eq, List.map_eq_nil_iff] at hnil
          subst hnil
          rw [← slicing_eq_iff] at hL
          rw [npRunGate_reset]
          simp only [npGateReset, forGen, hL, List.map_nil, List.foldlM_nil]; rfl
        | g1 k T => simp [Gate.isMeas] at hg
        | g2 k T => simp [Gate.isMeas] at hg
        | g3 k T => simp [Gate.isMeas] at hg
      rw [hrun] at hm
      cases hx : plainGate n g ⟨vec n ψ, cregs, rnd⟩ with
      | error e => rw [hx] at hm; simp [Match] at hm
      | ok p =>
        rw [hx] at hm
        obtain ⟨-, b, -, he⟩ := hm
        simp only [Except.ok.injEq, NpCtx.mk.injEq, c] at he
        obtain ⟨e1, e2, e3, e4, e5⟩ := he
        simp only [unitaries, List.foldl_nil]
        rw [e1, e3, e5]
  have hm := plainGate_match n g ⟨vec n ψ, buf, cregs, save, rnd⟩ (by simp [NpCtx.Wf, hbuf])
  have hcore : NpCtx.core ⟨vec n ψ, buf, cregs, save, rnd⟩ = ⟨vec n ψ, cregs, rnd⟩ := rfl
  rw [hcore, hq] at hm
  obtain ⟨-, b, hb, he⟩ := hm
  exact ⟨b, save && !g.isMeas, hb, he⟩

/-- C08: running a gate whose subscript denotes valid qubits, on any context of `n` qubits holding any amplitudes
`ψ`, multiplies the state by the textbook operators of the addressed qubits, one after the other. Classical bits
and random numbers are untouched. Except for `cu1` the phase is exact (`z = 1`). Gates without a method of their
own are included. -/
theorem C08_gate (n : ℕ) (g : Gate) (es : List Elem) (hd : GateDenotes n g es) (hv : ∀ e ∈ es, e.Valid n)
    (hu : ∀ e ∈ es, e.IsUnitary) (ψ : Vec) (buf : Arr) (hbuf : buf.length = 2 ^ n) (cregs : List ℕ) (save : Bool)
    (rnd : ℕ → ℝ) :
    ∃ (z : ℂ) (buf' : Arr) (save' : Bool), ‖z‖ = 1 ∧ ((∀ e ∈ es, ¬ e.IsCu1) → z = 1) ∧ buf'.length = 2 ^ n ∧
      npRunGate n g ⟨amplitudes n ψ, buf, cregs, save, rnd⟩ =
        .ok ⟨amplitudes n (fun i => z * unitaries phDoc es ψ i), buf', cregs, save', rnd⟩ := by
  obtain ⟨z, hz1, hz2, hz3⟩ := unitaries_phSim es
  obtain ⟨b, save', hb, he⟩ := npRunGate_state n g es hd hv hu ψ buf hbuf cregs save rnd
  refine ⟨z, b, save', hz1, hz2, hb, ?_⟩
  rw [← vec_eq_amplitudes, ← vec_eq_amplitudes, he, hz3]

/-- Hypotheses met: `crx(θ)[2, 0]` on three qubits. -/
example (θ : ℝ) : GateDenotes 3 (.g2 (.crx θ) (.tup [.atom (.int 2), .atom (.int 0)])) [.two (.crx θ) 2 0] ∧
    (Elem.two (.crx θ) 2 0).Valid 3 ∧ (Elem.two (.crx θ) 2 0).IsUnitary ∧ ¬ (Elem.two (.crx θ) 2 0).IsCu1 := by
  refine ⟨⟨[(2, 0)], ?_, rfl⟩, by simp [Elem.Valid], trivial, fun h => h⟩
  rw [← pairsDenote_iff]; rfl

theorem run_of_shots {n : ℕ} {gates : List Gate} {k : ℕ} {rnd : ℕ → ℝ} {p : PSt} {c : Counter}
    (h : plainShots n gates k (npNewCtx n rnd).core [] = .ok (p, c)) :
    ∃ be ctx, npRun n gates k NpBackend.new rnd = (be, .ok (ctx, c)) ∧ ctx.core = p := by
  have hs := (npRun_spec n gates k NpBackend.new (cacheInv_of_ok (cacheOK_new 0 gates)) rnd).2
  rw [h] at hs
  rcases hr : npRun n gates k NpBackend.new rnd with ⟨be, r⟩
  rw [hr] at hs
  cases r with
  | error e => simp [Except.map] at hs
  | ok x =>
    obtain ⟨ctx, c'⟩ := x
    simp only [Except.map, Except.ok.injEq, Prod.mk.injEq] at hs
    obtain ⟨h1, h2⟩ := hs
    subst h2
    exact ⟨be, ctx, rfl, h1⟩

theorem shots_of_run {n : ℕ} {gates : List Gate} {k : ℕ} {rnd : ℕ → ℝ} {be : NpBackend} {ctx : NpCtx} {c : Counter}
    (h : npRun n gates k NpBackend.new rnd = (be, .ok (ctx, c))) :
    plainShots n gates k (npNewCtx n rnd).core [] = .ok (ctx.core, c) := by
  have hs := (npRun_spec n gates k NpBackend.new (cacheInv_of_ok (cacheOK_new 0 gates)) rnd).2
  rw [h] at hs
  exact hs.symm

theorem freshRun_phSim (n : ℕ) (gates : List Gate) (es : List Elem) (hd : GatesDenote n gates es)
    (hv : ∀ e ∈ es, e.Valid n) (hu : ∀ e ∈ es, e.IsUnitary) (rnd : ℕ → ℝ) :
    freshRun n gates ⟨none, none, false, rnd⟩ =
      .ok (.statevector (amplitudes n (unitaries phSim es (fun j => if j = 0 then 1 else 0))), rnd) := by
  obtain ⟨p', res', h1, h2, -⟩ := plainShots_refine (P := False) hd hv (fun e he => .inr (hu e he)) 1
    (npNewCtx n rnd).core [] (fun h => h.elim) (by simp) (by simp)
  have h2' := h2 (steps phSim n es (initState rnd)) rfl
  rw [steps_unitary phSim n es hu] at h2'
  obtain ⟨be, ctx, h3, h4⟩ := run_of_shots h1
  have hparse : npParse none none = .ok (1, "statevector") := by decide
  simp only [freshRun, npRunArgs, hparse]
  rw [show (1 : ℤ).toNat = 1 from rfl, h3]
  have e1 : ctx.qubits = vec n (unitaries phSim es (initState rnd).psi) := by
    have := h2'.q; rw [← h4] at this; exact this
  have e2 : ctx.rnd = rnd := by have := h2'.rnd; rw [← h4] at this; exact this
  simp only [Bool.false_eq_true, if_false, npReturn, if_true, e1, e2]
  rfl

/-- C08 for runs: `circuit.run()` of a circuit of unitary gates with valid targets returns the documented
operators applied, in order, to the all-zero state; the phase is exact if no `cu1` occurs. No random number is
used. -/
theorem C08_run (n : ℕ) (gates : List Gate) (es : List Elem) (hd : GatesDenote n gates es)
    (hv : ∀ e ∈ es, e.Valid n) (hu : ∀ e ∈ es, e.IsUnitary) (rnd : ℕ → ℝ) :
    ∃ z : ℂ, ‖z‖ = 1 ∧ ((∀ e ∈ es, ¬ e.IsCu1) → z = 1) ∧
      freshRun n gates ⟨none, none, false, rnd⟩ =
        .ok (.statevector (amplitudes n (fun i => z * unitaries phDoc es (fun j => if j = 0 then 1 else 0) i)), rnd) := by
  obtain ⟨z, hz1, hz2, hz3⟩ := unitaries_phSim es
  exact ⟨z, hz1, hz2, by rw [freshRun_phSim n gates es hd hv hu rnd, hz3]⟩

example : GatesDenote 2 [.g1 .h (.one (.int 0)), .g2 .cx (.tup [.atom (.int 0), .atom (.int 1)])]
    [.one .h 0, .two .cx 0 1] := by
  refine ⟨[.one .h 0], [.two .cx 0 1], ⟨[0], ?_, rfl⟩, ⟨[.two .cx 0 1], [], ⟨[(0, 1)], ?_, rfl⟩, rfl, rfl⟩, rfl⟩
  · rw [← slicing_eq_iff]; rfl
  · rw [← pairsDenote_iff]; rfl

/-! ## C57 -/

theorem npParse_some (k : Option ℤ) (r : String) (h : r ∈ npReturnTypes) :
    npParse k (some r) = .ok (k.getD (if r = "statevector" ∨ r = "_inner_ctx" then 1 else 1024), r) := by
  simp only [npParse, if_pos h]
  cases k with
  | some k => rfl
  | none => by_cases hr : r = "statevector" ∨ r = "_inner_ctx" <;> simp [hr]

theorem npParse_bad (k : Option ℤ) (r : String) (h : r ∉ npReturnTypes) :
    npParse k (some r) = .error .valueError := by
  simp only [npParse, if_neg h]

/-- C57: the rules for `shots` and `returns`. Without both, the state vector after one shot; with `shots` alone,
counts of that many shots; with `returns` alone, one shot for `statevector` and `_inner_ctx` and 1024 otherwise;
an unknown `returns` raises ValueError with the backend object, cache included, unchanged. -/
theorem C57_run_arguments (n : ℕ) (gates : List Gate) (be : NpBackend) (ig : Bool) (rnd : ℕ → ℝ) :
    (npRunArgs n gates be ⟨none, none, ig, rnd⟩ = npRunArgs n gates be ⟨some 1, some "statevector", ig, rnd⟩) ∧
    (∀ k, npRunArgs n gates be ⟨some k, none, ig, rnd⟩ = npRunArgs n gates be ⟨some k, some "shots", ig, rnd⟩) ∧
    (∀ r, r = "statevector" ∨ r = "_inner_ctx" →
      npRunArgs n gates be ⟨none, some r, ig, rnd⟩ = npRunArgs n gates be ⟨some 1, some r, ig, rnd⟩) ∧
    (∀ r, r = "shots" ∨ r = "statevector_and_shots" →
      npRunArgs n gates be ⟨none, some r, ig, rnd⟩ = npRunArgs n gates be ⟨some 1024, some r, ig, rnd⟩) ∧
    (∀ k v rest, (npRunArgs n gates be ⟨k, some "statevector", ig, rnd⟩).2 = .ok (v, rest) → ∃ q, v = .statevector q) ∧
    (∀ k v rest, (npRunArgs n gates be ⟨k, some "shots", ig, rnd⟩).2 = .ok (v, rest) → ∃ c, v = .shots c) ∧
    (∀ k v rest, (npRunArgs n gates be ⟨k, some "statevector_and_shots", ig, rnd⟩).2 = .ok (v, rest) →
      ∃ q c, v = .both q c) ∧
    (∀ k v rest, (npRunArgs n gates be ⟨k, some "_inner_ctx", ig, rnd⟩).2 = .ok (v, rest) → ∃ q cr c, v = .inner q cr c) ∧
    (∀ k r, r ∉ ["statevector", "shots", "statevector_and_shots", "_inner_ctx"] →
      npRunArgs n gates be ⟨k, some r, ig, rnd⟩ = (be, .error .valueError)) := by
  have hshape : ∀ (k : Option ℤ) (r : String) (v : NpVal) (rest : ℕ → ℝ),
      (npRunArgs n gates be ⟨k, some r, ig, rnd⟩).2 = .ok (v, rest) → ∃ q cr c, v = npReturn r q cr c := by
    intro k r v rest h
    simp only [npRunArgs] at h
    cases hp : npParse k (some r) with
    | error e => rw [hp] at h; cases h
    | ok x =>
      obtain ⟨s, r'⟩ := x
      have hr : r' = r := by
        by_cases hm : r ∈ npReturnTypes
        · rw [npParse_some k r hm] at hp; cases hp; rfl
        · rw [npParse_bad k r hm] at hp; cases hp
      subst hr
      rw [hp] at h
      simp only at h
      rcases hrun : npRun n gates s.toNat be rnd with ⟨be', res⟩
      rw [hrun] at h
      cases res with
      | error e => cases h
      | ok y =>
        obtain ⟨ctx, c⟩ := y
        simp only [Except.ok.injEq, Prod.mk.injEq] at h
        exact ⟨_, _, _, h.1.symm⟩
  refine ⟨rfl, fun k => rfl, ?_, ?_, ?_, ?_, ?_, ?_, ?_⟩
  · rintro r (rfl | rfl) <;> rfl
  · rintro r (rfl | rfl) <;> rfl
  · intro k v rest h
    obtain ⟨q, cr, c, rfl⟩ := hshape k _ v rest h
    exact ⟨q, by simp [npReturn]⟩
  · intro k v rest h
    obtain ⟨q, cr, c, rfl⟩ := hshape k _ v rest h
    exact ⟨c, by simp [npReturn]⟩
  · intro k v rest h
    obtain ⟨q, cr, c, rfl⟩ := hshape k _ v rest h
    exact ⟨q, c, by simp [npReturn]⟩
  · intro k v rest h
    obtain ⟨q, cr, c, rfl⟩ := hshape k _ v rest h
    exact ⟨q, cr, c, by simp [npReturn]⟩
  · intro k r hr
    simp only [npRunArgs, npParse, npReturnTypes]
    rw [if_neg hr]

/-- The results exist: the default run and a counting run of the empty circuit on one qubit. -/
example (rnd : ℕ → ℝ) : (npRunArgs 1 [] NpBackend.new ⟨none, none, false, rnd⟩).2 = .ok (.statevector [1, 0], rnd) ∧
    (npRunArgs 1 [] NpBackend.new ⟨some 2, none, false, rnd⟩).2 = .ok (.shots [("0", 2)], rnd) := ⟨rfl, rfl⟩

/-! ## C09 -/

/-- The state vector in a returned value, if there is one. -/
def NpVal.vector : NpVal → Option Arr
  | .statevector q => some q
  | .shots _ => none
  | .both q _ => some q
  | .inner q _ _ => some q

theorem sum_amplitudes (n : ℕ) (ψ : Vec) : ((amplitudes n ψ).map (fun z => ‖z‖ ^ 2)).sum = normSqN n ψ := by
  simp only [amplitudes, List.map_map, normSqN]
  have := list_sum_filter (2 ^ n) (fun _ => true) (fun i => ‖ψ i‖ ^ 2)
  simpa [Function.comp_def] using this

theorem ignoreGlobal_norm (v : Arr) : ((ignoreGlobalPhase v).map (fun z => ‖z‖ ^ 2)) = v.map (fun z => ‖z‖ ^ 2) := by
  simp only [ignoreGlobalPhase]
  cases h : v.find? (fun q => decide (‖q‖ > 0.0000001)) with
  | none => rfl
  | some q =>
    have hq := List.find?_some h
    simp only [decide_eq_true_eq] at hq
    have h0 : ‖q‖ ≠ 0 := by intro h; rw [h] at hq; norm_num at hq
    simp only [List.map_map]
    apply List.map_congr_left
    intro z _
    simp only [Function.comp, norm_mul, norm_div, Complex.norm_real, norm_norm]
    rw [div_self h0, mul_one]

/-- C09: a run (new backend object or, by C17, any cache state) of any circuit with valid targets, any gates,
measurements and resets, any random numbers in [0, 1) and at least one shot succeeds, and the state vector it
returns, if any, has `2^n` entries and norm 1. -/
theorem C09_normalised (n : ℕ) (gates : List Gate) (es : List Elem) (hd : GatesDenote n gates es)
    (hv : ∀ e ∈ es, e.Valid n) (a : RunArgs) (hr : InUnit a.rnd) (hs : ∀ k, a.shots = some k → 1 ≤ k)
    (hret : ∀ r, a.returns = some r → r ∈ ["statevector", "shots", "statevector_and_shots", "_inner_ctx"]) :
    ∃ v rest, freshRun n gates a = .ok (v, rest) ∧
      ∀ q, v.vector = some q → q.length = 2 ^ n ∧ (q.map (fun z => ‖z‖ ^ 2)).sum = 1 := by
  obtain ⟨shots, returns, ig, rnd⟩ := a
  simp only at hr hs hret
  have hparse : ∃ k r, npParse shots returns = .ok (k, r) ∧ 1 ≤ k := by
    cases returns with
    | some r =>
      refine ⟨_, r, npParse_some shots r (hret r rfl), ?_⟩
      cases shots with
      | some k => exact hs k rfl
      | none => simp only [Option.getD_none]; split_ifs <;> norm_num
    | none =>
      cases shots with
      | none => exact ⟨1, "statevector", by decide, le_refl _⟩
      | some k => exact ⟨k, "shots", by simp [npParse, npReturnTypes], hs k rfl⟩
  obtain ⟨k, r, hp, hk⟩ := hparse
  obtain ⟨m, rfl⟩ : ∃ m : ℕ, k = (m + 1 : ℕ) := ⟨(k - 1).toNat, by omega⟩
  obtain ⟨p', res', h1, h2, -⟩ := plainShots_refine (P := True) hd hv (fun e he => .inl trivial) (m + 1)
    (npNewCtx n rnd).core [] (fun _ => hr) (by simp) (by simp)
  obtain ⟨be, ctx, h3, h4⟩ := run_of_shots h1
  have hne : shotStates phSim n es (m + 1) (npNewCtx n rnd).core.rnd ≠ [] := by simp [shotStates]
  have hR := h2 _ (List.getLast?_eq_some_getLast hne)
  have hq := hR.q
  rw [← h4] at hq
  simp only [NpCtx.core] at hq
  have hgood := (hR.good trivial).1
  have hlen : ∀ v : Arr, (ignoreGlobalPhase v).length = v.length := by
    intro v; simp only [ignoreGlobalPhase]; split <;> simp
  simp only [freshRun, npRunArgs, hp, Int.toNat_natCast, h3]
  refine ⟨_, _, rfl, fun q hqv => ?_⟩
  have hqq : q = if ig = true then ignoreGlobalPhase ctx.qubits else ctx.qubits := by
    simp only [npReturn] at hqv
    split_ifs at hqv ⊢ <;> simp_all [NpVal.vector]
  have hbase : ctx.qubits.length = 2 ^ n ∧ (ctx.qubits.map (fun z => ‖z‖ ^ 2)).sum = 1 := by
    rw [hq]
    exact ⟨by simp, by rw [vec_eq_amplitudes, sum_amplitudes]; exact hgood⟩
  rw [hqq]
  split_ifs
  · rw [hlen, ignoreGlobal_norm]; exact hbase
  · exact hbase

/-- Hypotheses met by a circuit that measures, resets and entangles. -/
example : GatesDenote 2 [.g1 .h (.one (.int 0)), .measure (.one (.int 0)), .reset (.one (.int 1))]
    [.one .h 0, .meas 0, .reset 1] := by
  refine ⟨[.one .h 0], [.meas 0, .reset 1], ⟨[0], ?_, rfl⟩, ⟨[.meas 0], [.reset 1], ⟨[0], ?_, rfl⟩,
    ⟨[.reset 1], [], ⟨[1], ?_, rfl⟩, rfl, rfl⟩, rfl⟩, rfl⟩
  all_goals rw [← slicing_eq_iff]; rfl

/-! ## C14, C15 -/

theorem setCreg_nat {cregs : List ℕ} {t v : ℕ} (h : t < cregs.length) :
    setCreg cregs (t : ℤ) v = .ok (cregs.set t v) := by
  simp only [setCreg]
  rw [if_neg (show ¬((t : ℤ) < 0) by omega), if_pos (show (0:ℤ) ≤ t ∧ (t:ℤ) < cregs.length by omega)]
  simp

theorem slicing_nat (n t : ℕ) : slicing (.one (.int t)) n = ⟨[(t : ℤ)], none⟩ := by
  rw [slicing_eq_iff]; simp [TargetsDenote, AtomDenotes, pyIndex_natCast]

theorem measure_one {n t : ℕ} (ψ : Vec) (hψ : normSqN n ψ = 1) (ctx : NpCtx) (hq : ctx.qubits = vec n ψ)
    (hc : t < ctx.cregs.length) :
    npRunGate n (.measure (.one (.int t))) ctx = .ok
      (if ctx.rnd 0 < prob n t false ψ then
        { ctx with qubits := vec n (collapse n t false ψ), cregs := ctx.cregs.set t 0, saveCache := false,
                   rnd := fun k => ctx.rnd (k + 1) }
      else
        { ctx with qubits := vec n (collapse n t true ψ), cregs := ctx.cregs.set t 1, saveCache := false,
                   rnd := fun k => ctx.rnd (k + 1) }) := by
  have hp : prob n t true ψ = 1 - prob n t false ψ := by have := prob_add n t ψ; linarith
  rw [npRunGate_measure]
  simp only [npGateMeasure, forGen, slicing_nat, List.foldlM_cons, List.foldlM_nil]
  simp only [bodyMeasure, shl1_nat, ok_bind, hq, maskEq_eq, maskNe_eq, p_zero_eq]
  split_ifs with h
  · rw [setCreg_nat hc]
    simp only [ok_bind, pure_ok, setAt_vec, divS_vec]
    congr 2
    apply vec_congr; intro i hi
    simp only [collapse]
    by_cases hb : i.testBit t <;> simp [hb]
  · rw [setCreg_nat hc]
    simp only [ok_bind, pure_ok, setAt_vec, divS_vec]
    congr 2
    apply vec_congr; intro i hi
    simp only [collapse, hp]
    by_cases hb : i.testBit t <;> simp [hb]

theorem prob_collapse_self {n t : ℕ} {b : Bool} {ψ : Vec} (h : 0 < prob n t b ψ) :
    prob n t b (collapse n t b ψ) = 1 := by
  have h1 := normSqN_collapse h
  have h2 : prob n t (!b) (collapse n t b ψ) = 0 := by
    simp only [prob]
    apply Finset.sum_eq_zero
    intro i hi
    simp only [Finset.mem_filter] at hi
    simp only [collapse, hi.2]
    cases b <;> simp
  have h3 := prob_add n t (collapse n t b ψ)
  cases b
  · simp only [Bool.not_false] at h2; rw [h1, h2, add_zero] at h3; exact h3
  · simp only [Bool.not_true] at h2; rw [h1, h2, zero_add] at h3; exact h3

theorem collapse_collapse {n t : ℕ} {b : Bool} {ψ : Vec} (h : 0 < prob n t b ψ) :
    collapse n t b (collapse n t b ψ) = collapse n t b ψ := by
  funext i
  have := prob_collapse_self h
  conv_lhs => rw [collapse]
  simp only [this, Real.sqrt_one, Complex.ofReal_one, div_one]
  by_cases hb : i.testBit t = b <;> simp [collapse, hb]

/-- C14: measuring qubit `t` of a normalised `n`-qubit state. The outcome is 0 exactly when the drawn number is
below the probability of 0; it is recorded at position `t` and nowhere else; it had non-zero probability, so the
division by its square root is not by zero; the new state is the old one restricted to that outcome and rescaled,
it is normalised and the qubit has the outcome with certainty; one random number is consumed. -/
theorem C14_measure (n t : ℕ) (ht : t < n) (ψ : Vec) (hψ : normSqN n ψ = 1) (ctx : NpCtx)
    (hq : ctx.qubits = amplitudes n ψ) (hc : ctx.cregs.length = n) (hr : 0 ≤ ctx.rnd 0 ∧ ctx.rnd 0 < 1) :
    ∃ (b : Bool) (ψ' : Vec) (ctx' : NpCtx), npRunGate n (.measure (.one (.int t))) ctx = .ok ctx' ∧
      (b = false ↔ ctx.rnd 0 < prob n t false ψ) ∧ 0 < prob n t b ψ ∧
      ctx'.qubits = amplitudes n ψ' ∧ ctx'.cregs = ctx.cregs.set t b.toNat ∧
      (∀ i < 2 ^ n, ψ' i = if i.testBit t = b then ψ i / (Real.sqrt (prob n t b ψ) : ℝ) else 0) ∧
      normSqN n ψ' = 1 ∧ prob n t b ψ' = 1 ∧ (∀ k, ctx'.rnd k = ctx.rnd (k + 1)) := by
  have hadd := prob_add n t ψ
  by_cases h : ctx.rnd 0 < prob n t false ψ
  · have h0 : 0 < prob n t false ψ := lt_of_le_of_lt hr.1 h
    have hm := measure_one (t := t) ψ hψ ctx hq (by omega)
    rw [if_pos h] at hm
    exact ⟨false, collapse n t false ψ, _, hm, by simp [h], h0, rfl, rfl, fun i _ => rfl,
      normSqN_collapse h0, prob_collapse_self h0, fun k => rfl⟩
  · have h0 : 0 < prob n t true ψ := by rw [hψ] at hadd; linarith
    have hm := measure_one (t := t) ψ hψ ctx hq (by omega)
    rw [if_neg h] at hm
    exact ⟨true, collapse n t true ψ, _, hm, by simp [h], h0, rfl, rfl, fun i _ => rfl,
      normSqN_collapse h0, prob_collapse_self h0, fun k => rfl⟩

/-- C14, second half: after a measurement of qubit `t`, measuring it again gives the same recorded bit and leaves
the state vector as it is, whatever the random numbers are. -/
theorem C14_measure_again (n t : ℕ) (ht : t < n) (ψ : Vec) (hψ : normSqN n ψ = 1) (ctx ctx' : NpCtx)
    (hq : ctx.qubits = amplitudes n ψ) (hc : ctx.cregs.length = n) (hr : 0 ≤ ctx.rnd 0 ∧ ctx.rnd 0 < 1)
    (h1 : npRunGate n (.measure (.one (.int t))) ctx = .ok ctx') (rnd : ℕ → ℝ) (hr' : 0 ≤ rnd 0 ∧ rnd 0 < 1) :
    ∃ ctx'', npRunGate n (.measure (.one (.int t))) { ctx' with rnd := rnd } = .ok ctx'' ∧
      ctx''.qubits = ctx'.qubits ∧ ctx''.cregs = ctx'.cregs := by
  have hadd := prob_add n t ψ
  have hset : ∀ (l : List ℕ) (v : ℕ), (l.set t v).set t v = l.set t v := by intro l v; simp
  rw [measure_one ψ hψ ctx hq (by omega)] at h1
  by_cases h : ctx.rnd 0 < prob n t false ψ
  · have h0 : 0 < prob n t false ψ := lt_of_le_of_lt hr.1 h
    rw [if_pos h] at h1
    cases h1
    refine ⟨_, measure_one (collapse n t false ψ) (normSqN_collapse h0) _ rfl (by simp; omega), ?_⟩
    rw [prob_collapse_self h0, if_pos hr'.2]
    simp [collapse_collapse h0]
  · have h0 : 0 < prob n t true ψ := by rw [hψ] at hadd; linarith
    rw [if_neg h] at h1
    cases h1
    refine ⟨_, measure_one (collapse n t true ψ) (normSqN_collapse h0) _ rfl (by simp; omega), ?_⟩
    have hz : prob n t false (collapse n t true ψ) = 0 := by
      have := prob_add n t (collapse n t true ψ)
      rw [prob_collapse_self h0, normSqN_collapse h0] at this; linarith
    rw [hz, if_neg (not_lt.2 hr'.1)]
    simp [collapse_collapse h0]

/-- A superposition meets the hypotheses: qubit 0 of (|0> + |1>)/√2. -/
example : normSqN 1 (fun i => if i < 2 then ((√2 : ℝ) : ℂ)⁻¹ else 0) = 1 := by
  simp only [normSqN, pow_one, Finset.sum_range_succ, Finset.sum_range_zero]
  norm_num

theorem reset_one {n t : ℕ} (ht : t < n) (ψ : Vec) (hψ : normSqN n ψ = 1) (ctx : NpCtx) (hq : ctx.qubits = vec n ψ) :
    npRunGate n (.reset (.one (.int t))) ctx = .ok
      (if ctx.rnd 0 < prob n t false ψ then
        { ctx with qubits := vec n (collapse n t false ψ), saveCache := false, rnd := fun k => ctx.rnd (k + 1) }
      else
        { ctx with qubits := vec n (app mX t (collapse n t true ψ)), saveCache := false,
                   rnd := fun k => ctx.rnd (k + 1) }) := by
  have hp : prob n t true ψ = 1 - prob n t false ψ := by have := prob_add n t ψ; linarith
  rw [npRunGate_reset]
  simp only [npGateReset, forGen, slicing_nat, List.foldlM_cons, List.foldlM_nil]
  simp only [bodyReset, shl1_nat, ok_bind, hq, maskEq_eq, maskNe_eq, p_zero_eq]
  split_ifs with h
  · simp only [ok_bind, pure_ok, setAt_vec, divS_vec]
    congr 2
    apply vec_congr; intro i hi
    simp only [collapse]
    by_cases hb : i.testBit t <;> simp [hb]
  · rw [sel_t1 ht, asg_vec]
    simp only [ok_bind, pure_ok, setAt_vec, divS_vec]
    congr 2
    apply vec_congr; intro i hi
    simp only [collapse, hp, app, mX]
    by_cases hb : i.testBit t <;> simp [hb]

/-- C15: resetting qubit `t` of a normalised state leaves a normalised state in which the qubit is 0 with
certainty; no classical bit changes; the branch taken had non-zero probability, so nothing is divided by zero;
one random number is consumed. The new amplitudes are those of the branch the random number selects, with the
qubit moved to 0. -/
theorem C15_reset (n t : ℕ) (ht : t < n) (ψ : Vec) (hψ : normSqN n ψ = 1) (ctx : NpCtx)
    (hq : ctx.qubits = amplitudes n ψ) (hr : 0 ≤ ctx.rnd 0 ∧ ctx.rnd 0 < 1) :
    ∃ (b : Bool) (ψ' : Vec) (ctx' : NpCtx), npRunGate n (.reset (.one (.int t))) ctx = .ok ctx' ∧
      (b = false ↔ ctx.rnd 0 < prob n t false ψ) ∧ 0 < prob n t b ψ ∧
      ctx'.qubits = amplitudes n ψ' ∧ ctx'.cregs = ctx.cregs ∧
      normSqN n ψ' = 1 ∧ prob n t false ψ' = 1 ∧ (∀ i < 2 ^ n, i.testBit t = true → ψ' i = 0) ∧
      (∀ i < 2 ^ n, i.testBit t = false →
        ψ' i = ψ (if b then i ^^^ 2 ^ t else i) / (Real.sqrt (prob n t b ψ) : ℝ)) ∧
      (∀ k, ctx'.rnd k = ctx.rnd (k + 1)) := by
  have hadd := prob_add n t ψ
  have hcert : ∀ χ : Vec, normSqN n χ = 1 → (∀ i < 2 ^ n, i.testBit t = true → χ i = 0) → prob n t false χ = 1 := by
    intro χ h1 h2
    have h3 := prob_add n t χ
    have h4 : prob n t true χ = 0 := by
      simp only [prob]
      apply Finset.sum_eq_zero
      intro i hi
      simp only [Finset.mem_filter, Finset.mem_range] at hi
      simp [h2 i hi.1 hi.2]
    linarith
  by_cases h : ctx.rnd 0 < prob n t false ψ
  · have h0 : 0 < prob n t false ψ := lt_of_le_of_lt hr.1 h
    have hz : ∀ i < 2 ^ n, i.testBit t = true → collapse n t false ψ i = 0 := by
      intro i _ hi; simp [collapse, hi]
    have hm := reset_one ht ψ hψ ctx hq
    rw [if_pos h] at hm
    refine ⟨false, collapse n t false ψ, _, hm, by simp [h], h0, rfl, rfl,
      normSqN_collapse h0, hcert _ (normSqN_collapse h0) hz, hz, ?_, fun k => rfl⟩
    intro i _ hi
    simp [collapse, hi]
  · have h0 : 0 < prob n t true ψ := by rw [hψ] at hadd; linarith
    have hz : ∀ i < 2 ^ n, i.testBit t = true → app mX t (collapse n t true ψ) i = 0 := by
      intro i _ hi; simp [app, mX, hi, collapse, testBit_flipBit]
    have hn : normSqN n (app mX t (collapse n t true ψ)) = 1 := by
      rw [(isom_app ht unit_X).norm]; exact normSqN_collapse h0
    have hm := reset_one ht ψ hψ ctx hq
    rw [if_neg h] at hm
    refine ⟨true, app mX t (collapse n t true ψ), _, hm, by simp [h], h0, rfl, rfl,
      hn, hcert _ hn hz, hz, ?_, fun k => rfl⟩
    intro i _ hi
    simp [app, mX, hi, collapse, testBit_flipBit, flipBit]

/-! ## C16 -/

/-- C16: for any circuit (any gates, valid or not), any `k ≥ 0` and random numbers: if `run(shots=k)` returns,
it returns counts; on `n > 0` qubits they sum to `k`; every key is a string of `n` characters 0 and 1 that has
`0` at every position that no measurement addresses; keys are distinct and every stored number is positive. -/
theorem C16_counts (n : ℕ) (gates : List Gate) (k : ℕ) (ig : Bool) (rnd : ℕ → ℝ) (v : NpVal) (rest : ℕ → ℝ)
    (h : freshRun n gates ⟨some k, none, ig, rnd⟩ = .ok (v, rest)) :
    ∃ c : Counter, v = .shots c ∧ (0 < n → total c = k) ∧ (n = 0 → c = []) ∧ (c.map Prod.fst).Nodup ∧
      ∀ p ∈ c, 0 < p.2 ∧ p.1.toList.length = n ∧ (∀ x ∈ p.1.toList, x = '0' ∨ x = '1') ∧
        ∀ q < n, ¬ MeasuredBy n gates q → p.1.toList[q]? = some '0' := by
  have hparse : npParse (some (k : ℤ)) none = .ok (k, "shots") := by simp [npParse, npReturnTypes]
  simp only [freshRun, npRunArgs, hparse, Int.toNat_natCast] at h
  rcases hrun : npRun n gates k NpBackend.new rnd with ⟨be, r⟩
  rw [hrun] at h
  cases r with
  | error e => cases h
  | ok x =>
    obtain ⟨ctx, c⟩ := x
    simp only [npReturn, Except.ok.injEq, Prod.mk.injEq] at h
    have hv : v = .shots c := by rw [← h.1]; simp
    obtain ⟨h1, h2, h3, h4⟩ := plainShots_keys k (shots_of_run hrun) (by simp) (by simp) (by simp)
    refine ⟨c, hv, ?_, ?_, h3, ?_⟩
    · intro hn; rw [h4, if_neg (by omega)]; simp [total]
    · intro hn
      rw [if_pos hn] at h4
      cases c with
      | nil => rfl
      | cons p c =>
        have := h2 p (by simp)
        simp only [total, List.map_cons, List.sum_cons, List.map_nil, List.sum_nil] at h4
        omega
    · intro p hp
      exact ⟨h2 p hp, (h1 p hp).1, (h1 p hp).2.1, (h1 p hp).2.2⟩

/-- C16 for circuits with valid targets: the run returns, and the number stored for each key is the number of
shots whose classical bits, qubit 0 first, spell that key; the shots are independent runs of the circuit from the
all-zero state, each continuing the stream of random numbers of the previous one. -/
theorem C16_counts_exact (n : ℕ) (hn : 0 < n) (gates : List Gate) (es : List Elem) (hd : GatesDenote n gates es)
    (hv : ∀ e ∈ es, e.Valid n) (k : ℕ) (ig : Bool) (rnd : ℕ → ℝ) (hr : InUnit rnd) :
    ∃ c rest, freshRun n gates ⟨some k, none, ig, rnd⟩ = .ok (.shots c, rest) ∧
      ∀ key, countOf c key = (shotStates phSim n es k rnd).countP (fun s => decide (bitString n s.creg = key)) := by
  obtain ⟨p', c, h1, -, -, h4, -⟩ := plainShots_refine (P := True) hd hv (fun e he => .inl trivial) k
    (npNewCtx n rnd).core [] (fun _ => hr) (by simp) (by simp)
  obtain ⟨be, ctx, h3, h5⟩ := run_of_shots h1
  have hparse : npParse (some (k : ℤ)) none = .ok (k, "shots") := by simp [npParse, npReturnTypes]
  simp only [freshRun, npRunArgs, hparse, Int.toNat_natCast, h3]
  refine ⟨c, ctx.rnd, by simp [npReturn], fun key => ?_⟩
  rw [h4 hn key]
  simp [countOf, npNewCtx, NpCtx.core]

/-- Measuring only qubit 0 of two qubits: qubit 1 is never measured. -/
example : ¬ MeasuredBy 2 [.measure (.one (.int 0))] 1 ∧ MeasuredBy 2 [.measure (.one (.int 0))] 0 := by
  constructor
  · rintro ⟨T, vals, hT, hd, hv⟩
    simp only [List.mem_singleton, Gate.measure.injEq] at hT
    subst hT
    simp only [TargetsDenote, AtomDenotes] at hd
    subst hd
    simp [pyIndex] at hv
  · exact ⟨_, [0], List.mem_singleton.2 rfl, by simp [TargetsDenote, AtomDenotes, pyIndex], by simp⟩

end Blueqat
