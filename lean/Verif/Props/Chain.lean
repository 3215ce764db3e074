import Verif.AnnealLaw
import Verif.ChainLemmas
import Verif.Props.Anneal
import Mathlib.Analysis.SpecificLimits.Basic
import Mathlib.Topology.Algebra.Order.Field
import Mathlib.Analysis.SpecialFunctions.Exp

/-!
# Property C106: the distribution of the results of simulated annealing
-/

set_option linter.unusedSimpArgs false
set_option linter.unusedVariables false

namespace Blueqat

open Spec MeasureTheory

noncomputable section

/-! ## One step -/

/-- C106. The rows of the transition probabilities of a step are distributions, and the step is reversible for the
Boltzmann distribution (detailed balance), which is therefore stationary. -/
theorem C106_balance (n : ℕ) (hn : 0 < n) (H : (Fin n → Bool) → ℝ) (T : ℝ) :
    (∀ c d, 0 ≤ metropolisMatrix H T c d) ∧ (∀ c, ∑ d, metropolisMatrix H T c d = 1) ∧
    (∀ c, 0 < boltzmann H T c) ∧ ∑ c, boltzmann H T c = 1 ∧
    (∀ c d, boltzmann H T c * metropolisMatrix H T c d = boltzmann H T d * metropolisMatrix H T d c) ∧
    ∀ d, ∑ c, boltzmann H T c * metropolisMatrix H T c d = boltzmann H T d :=
  have hn : 0 < Fintype.card (Fin n) := by simpa using hn
  ⟨(metropolis_stoch H T hn).1, (metropolis_stoch H T hn).2, fun c => div_pos (Real.exp_pos _) (boltz_sum_pos H T),
    boltz_sum H T, metropolis_balance H T, metropolis_invariant H T hn⟩

/-! ## Runs -/

/-- The runs with one shot that return these bits. -/
def returns (o : Opt) (fast : Bool) (target : ℝ) (fuel : ℕ) (bits : List ℤ) : Set Draws :=
  {ω | ∃ log, o.run 1 fast target ⟨ω.1, ω.2.1, ω.2.2⟩ fuel = .ok (some (.single bits, log))}

theorem toBits_eq_iff (n : ℕ) (q : NpInts) (hd : q.dim = n) (hs : IsSpins q) (d : Fin n → Bool) :
    toBits q = bitList d ↔ cfin n q = d := by
  subst hd
  rw [anneal_isSpins_bits q hs, bitList]
  have : (List.range q.dim).map (fun i => if conf q i then (1 : ℤ) else 0) = List.ofFn fun i : Fin q.dim => if cfin q.dim q i then (1 : ℤ) else 0 := by
    rw [List.ofFn_eq_map, ← List.map_coe_finRange_eq_range, List.map_map]
    refine List.map_congr_left fun i _ => ?_
    simp [cfin, conf]
  rw [this, List.ofFn_inj]
  constructor
  · intro h
    funext i
    have := congrFun h i
    revert this
    cases cfin q.dim q i <;> cases d i <;> simp
  · rintro rfl; rfl

theorem quboAt_eq (n : ℕ) (Q : ℕ → ℕ → ℝ) (b : ℕ → ℝ) (c : Fin n → Bool) (h : ∀ i : Fin n, b i = if c i then 1 else 0) :
    upperEnergy n Q b = quboAt n Q c := by
  rw [upperEnergy, quboAt, Finset.sum_range]
  refine Finset.sum_congr rfl fun i _ => ?_
  rw [Finset.sum_range]
  refine Finset.sum_congr rfl fun j _ => ?_
  rw [h, h]
  by_cases hij : i ≤ j
  · rw [if_pos (by exact_mod_cast hij)]
    cases c i <;> cases c j <;> simp [hij]
  · rw [if_neg (by exact_mod_cast hij)]
    simp [hij]

theorem returns_eq (o o' : Opt) (hp : o.prepare = .ok o') (hr : o'.J.rows ≠ 0) (fast : Bool) (target : ℝ) (fuel : ℕ)
    (bits : List ℤ) : returns o fast target fuel bits =
      {ω | ofRand ((toRand ω).spins o'.J.rows).2 ∈ (fun q => {ω | loopEv (reJ o'.J) o'.J o'.ep (if fast then 0.75 else o'.R)
        target (if fast then 100 else o'.ite) fuel o'.Ts q (toRand ω) [] fun q => {_ω | toBits q = bits}})
          ((toRand ω).spins o'.J.rows).1} := by
  ext ω
  rw [returns, Set.mem_setOf_eq, show (⟨ω.1, ω.2.1, ω.2.2⟩ : Rand) = toRand ω from rfl]
  simp only [Set.mem_setOf_eq, Opt.run, hp, bind, Except.bind]
  have hrows : (reJ o'.J).rows = o'.J.rows := rfl
  generalize (if fast = true then 100 else o'.ite) = ite
  generalize (if fast = true then (0.75 : ℝ) else o'.R) = R
  rw [if_neg (by simp [hrows, hr])]
  simp only [saShots, hrows]
  have hes : loopEv (reJ o'.J) o'.J o'.ep R target ite fuel o'.Ts ((toRand ω).spins o'.J.rows).1
      (toRand (ofRand ((toRand ω).spins o'.J.rows).2)) [] (fun q => {_ω | toBits q = bits}) ↔
    loopEv (reJ o'.J) o'.J o'.ep R target ite fuel o'.Ts ((toRand ω).spins o'.J.rows).1
      ((toRand ω).spins o'.J.rows).2 [ei ((toRand ω).spins o'.J.rows).1 o'.J + o'.ep] (fun q => {_ω | toBits q = bits}) :=
    ⟨fun h => loopEv_es _ _ _ _ _ _ _ _ _ _ _ _ _ h, fun h => loopEv_es _ _ _ _ _ _ _ _ _ _ _ _ _ h⟩
  rw [hes, loopEv]
  cases hl : saLoop (reJ o'.J) o'.J o'.ep R target ite fuel o'.Ts ((toRand ω).spins o'.J.rows).1
      ((toRand ω).spins o'.J.rows).2 [ei ((toRand ω).spins o'.J.rows).1 o'.J + o'.ep] with
  | none => simp [pure, Except.pure]
  | some p =>
    obtain ⟨q, r, es⟩ := p
    simp [pure, Except.pure]

variable (o : Opt) [NeZero o.qubo.length]

theorem shot_law {n : ℕ} [NeZero n] (J : NpMat) (ep : ℝ) (H : (Fin n → Bool) → ℝ)
    (hE : ∀ q : NpInts, q.dim = n → IsSpins q → isingEnergy n J.ent (fun i => (q.ent i : ℝ)) + ep = H (cfin n q))
    (R target Ts : ℝ) (ite : ℕ) (ts : List ℝ) (hts : Schedule R target Ts ts) (hpos : ∀ t ∈ ts, 0 < t) (fuel : ℕ)
    (hf : ts.length ≤ fuel) (d : Fin n → Bool) (C : Set Draws) (hC : MeasurableSet C) :
    MeasurableSet {ω | ofRand ((toRand ω).spins n).2 ∈ (fun q => {ω | loopEv (reJ J) J ep R target ite fuel Ts q (toRand ω) []
      fun q => {ω | toBits q = bitList d ∧ ω ∈ C}}) ((toRand ω).spins n).1} ∧
    (draws n).real {ω | ofRand ((toRand ω).spins n).2 ∈ (fun q => {ω | loopEv (reJ J) J ep R target ite fuel Ts q (toRand ω) []
      fun q => {ω | toBits q = bitList d ∧ ω ∈ C}}) ((toRand ω).spins n).1} = annealProb (metropolisMatrix H) ite ts d * (draws n).real C := by
  have hB : GoodEvents n (fun q => {ω | toBits q = bitList d ∧ ω ∈ C}) (Pi.single d ((draws n).real C)) := by
    intro q hd hs
    beta_reduce
    by_cases h : cfin n q = d
    · have e : {ω : Draws | toBits q = bitList d ∧ ω ∈ C} = C := by
        ext; simp [(toBits_eq_iff _ q hd hs d).2 h]
      rw [e, h]
      exact ⟨hC, by simp⟩
    · have e : {ω : Draws | toBits q = bitList d ∧ ω ∈ C} = ∅ := by
        ext; simp [mt (toBits_eq_iff _ q hd hs d).1 h]
      rw [e]
      simp [Pi.single_apply, h]
  have hloop := loop_law J ep _ hE R target ite _ _ hB hts hpos fuel hf
  have hsame : ∀ q q' : NpInts, SameRow q q' → toBits q = toBits q' := by
    intro q q' h
    simp only [toBits, ← h.1]
    exact List.map_congr_left fun i hi => by rw [h.2 i (List.mem_range.1 hi)]
  have hmv : ∑ c, (annealMatrix (metropolisMatrix H) ite ts).mulVec (Pi.single d ((draws n).real C)) c =
      (∑ c, annealMatrix (metropolisMatrix H) ite ts c d) * (draws n).real C := by
    rw [Finset.sum_mul]
    refine Finset.sum_congr rfl fun c _ => ?_
    rw [Matrix.mulVec_single]
    simp
  rw [annealProb, mul_assoc, ← hmv, Fintype.card_fin]
  refine start_law _ ?_ _ hloop
  intro q q' hd h
  ext ω
  exact same_loop _ _ _ _ _ _ _ (fun q q' h => by rw [hsame q q' h]) _ _ _ _ _ (hd ▸ Nat.pos_of_ne_zero (NeZero.ne _)) h

theorem saShots_acc (o : Opt) (J : NpMat) (R target : ℝ) (ite fuel : ℕ) : ∀ (k : ℕ) (r : Rand) (E : List (List ℝ)) (qq : List (List ℤ)),
    saShots o J R target ite fuel k r E qq =
      (saShots o J R target ite fuel k r [] []).map fun p => (E ++ p.1, qq ++ p.2.1, p.2.2)
  | 0, r, E, qq => by simp [saShots]
  | k + 1, r, E, qq => by
    rw [saShots, saShots]
    cases saLoop J o.J o.ep R target ite fuel o.Ts (r.spins J.rows).1 (r.spins J.rows).2 [ei (r.spins J.rows).1 o.J + o.ep] with
    | none => rfl
    | some p =>
      obtain ⟨q, r', es⟩ := p
      simp only [List.nil_append]
      rw [saShots_acc o J R target ite fuel k r' (E ++ [es]), saShots_acc o J R target ite fuel k r' [es]]
      cases saShots o J R target ite fuel k r' [] [] <;> simp

theorem shots_law {n : ℕ} [NeZero n] (o : Opt) (hn : o.J.rows = n) (H : (Fin n → Bool) → ℝ)
    (hE : ∀ q : NpInts, q.dim = n → IsSpins q → isingEnergy n o.J.ent (fun i => (q.ent i : ℝ)) + o.ep = H (cfin n q))
    (R target : ℝ) (ite : ℕ) (ts : List ℝ) (hts : Schedule R target o.Ts ts) (hpos : ∀ t ∈ ts, 0 < t) (fuel : ℕ)
    (hf : ts.length ≤ fuel) : ∀ ds : List (Fin n → Bool),
    MeasurableSet {ω | ∃ E' r', saShots o (reJ o.J) R target ite fuel ds.length (toRand ω) [] [] = some (E', ds.map bitList, r')} ∧
    (draws n).real {ω | ∃ E' r', saShots o (reJ o.J) R target ite fuel ds.length (toRand ω) [] [] = some (E', ds.map bitList, r')} =
      (ds.map (annealProb (metropolisMatrix H) ite ts)).prod
  | [] => by
    have : {ω : Draws | ∃ E' r', saShots o (reJ o.J) R target ite fuel 0 (toRand ω) [] [] = some (E', [], r')} = Set.univ := by
      ext ω
      simp [saShots]
    simp only [List.length_nil, List.map_nil, this]
    simp
  | d :: ds => by
    have ih := shots_law o hn H hE R target ite ts hts hpos fuel hf ds
    have hshot := shot_law o.J o.ep H hE R target o.Ts ite ts hts hpos fuel hf d _ ih.1
    have e : {ω | ∃ E' r', saShots o (reJ o.J) R target ite fuel (d :: ds).length (toRand ω) [] [] =
        some (E', (d :: ds).map bitList, r')} =
      {ω | ofRand ((toRand ω).spins n).2 ∈ (fun q => {ω | loopEv (reJ o.J) o.J o.ep R target ite fuel o.Ts q (toRand ω) []
        fun q => {ω | toBits q = bitList d ∧ ω ∈ {ω | ∃ E' r', saShots o (reJ o.J) R target ite fuel ds.length (toRand ω) [] [] =
          some (E', ds.map bitList, r')}}}) ((toRand ω).spins n).1} := by
      ext ω
      have hrows : (reJ o.J).rows = n := hn
      have hes : ∀ B, loopEv (reJ o.J) o.J o.ep R target ite fuel o.Ts ((toRand ω).spins n).1
          (toRand (ofRand ((toRand ω).spins n).2)) [] B ↔
        loopEv (reJ o.J) o.J o.ep R target ite fuel o.Ts ((toRand ω).spins n).1
          ((toRand ω).spins n).2 [ei ((toRand ω).spins n).1 o.J + o.ep] B := fun B =>
        ⟨fun h => loopEv_es _ _ _ _ _ _ _ _ _ _ _ _ _ h, fun h => loopEv_es _ _ _ _ _ _ _ _ _ _ _ _ _ h⟩
      simp only [Set.mem_setOf_eq, List.length_cons, List.map_cons, hes]
      rw [loopEv, saShots, hrows]
      cases hl : saLoop (reJ o.J) o.J o.ep R target ite fuel o.Ts ((toRand ω).spins n).1
          ((toRand ω).spins n).2 [ei ((toRand ω).spins n).1 o.J + o.ep] with
      | none => simp
      | some p =>
        obtain ⟨q, r, es⟩ := p
        simp only [List.nil_append]
        rw [saShots_acc]
        have hr : toRand (ofRand r) = r := rfl
        constructor
        · rintro ⟨E', r', h⟩
          rw [Option.map_eq_some_iff] at h
          obtain ⟨⟨E2, qq2, r2⟩, h1, h2⟩ := h
          simp only [Prod.mk.injEq, List.singleton_append, List.cons.injEq] at h2
          obtain ⟨-, ⟨h3, h4⟩, -⟩ := h2
          refine ⟨q, r, es, rfl, h3, E2, r2, ?_⟩
          rw [hr, h1, h4]
        · rintro ⟨q', r', es', h, h3, E2, r2, h4⟩
          cases h
          rw [hr] at h4
          rw [h4]
          exact ⟨[es] ++ E2, r2, by simp [h3]⟩
    rw [e]
    refine ⟨hshot.1, ?_⟩
    rw [hshot.2, ih.2, List.map_cons, List.prod_cons]

/-- The matrix of `prepare` has the energy of the QUBO. -/
theorem opt_prepared (hq : ∀ row ∈ o.qubo, o.qubo.length ≤ row.length) : ∃ J ep, o.prepare = .ok { o with J := J, ep := ep } ∧
    J.rows = o.qubo.length ∧ ∀ q : NpInts, q.dim = o.qubo.length → IsSpins q →
      isingEnergy o.qubo.length J.ent (fun i => (q.ent i : ℝ)) + ep = quboAt o.qubo.length (entryOf o.qubo) (cfin o.qubo.length q) := by
  have hne : o.qubo ≠ [] := fun h => NeZero.ne o.qubo.length (by rw [h]; rfl)
  obtain ⟨J, ep, h1, h2, h3, h4⟩ := C48_qi o.qubo hq
  refine ⟨J, ep, by simp only [Opt.prepare, if_neg hne, h1, bind, Except.bind, pure, Except.pure], h2, ?_⟩
  intro q hd hs
  have := h4 q hd hs
  rw [ei_eq, hd] at this
  rw [this]
  refine quboAt_eq _ _ _ _ fun i => ?_
  simp [cfin]

/-- C106. A run with one shot returns the bits `d` with the probability that `ite` Metropolis steps at each temperature of
the schedule lead from a uniformly random assignment to `d`. -/
theorem C106_run (hq : ∀ row ∈ o.qubo, o.qubo.length ≤ row.length) (fast : Bool) (target : ℝ) (ts : List ℝ)
    (hts : Schedule (if fast then 0.75 else o.R) target o.Ts ts) (hpos : ∀ t ∈ ts, 0 < t) (fuel : ℕ) (hf : ts.length ≤ fuel)
    (d : Fin o.qubo.length → Bool) :
    MeasurableSet (returns o fast target fuel (bitList d)) ∧
    (draws o.qubo.length).real (returns o fast target fuel (bitList d)) =
      annealProb (metropolisMatrix (quboAt o.qubo.length (entryOf o.qubo))) (if fast then 100 else o.ite) ts d := by
  obtain ⟨J, ep, hp, h2, hE⟩ := opt_prepared o hq
  rw [returns_eq o _ hp (by rw [h2]; exact NeZero.ne _)]
  simp only [h2]
  have := shot_law J ep _ hE (if fast then 0.75 else o.R) target o.Ts (if fast then 100 else o.ite) ts hts hpos fuel hf d
    Set.univ MeasurableSet.univ
  simpa only [Set.mem_univ, and_true, probReal_univ, mul_one] using this

/-- C106. The shots of a run are independent: the probability of a list of results is the product of their probabilities. -/
theorem C106_shots (hq : ∀ row ∈ o.qubo, o.qubo.length ≤ row.length) (fast : Bool) (target : ℝ) (ts : List ℝ)
    (hts : Schedule (if fast then 0.75 else o.R) target o.Ts ts) (hpos : ∀ t ∈ ts, 0 < t) (fuel : ℕ) (hf : ts.length ≤ fuel)
    (ds : List (Fin o.qubo.length → Bool)) (h1 : ds.length ≠ 1) :
    MeasurableSet {ω : Draws | ∃ log, o.run ds.length fast target ⟨ω.1, ω.2.1, ω.2.2⟩ fuel =
      .ok (some (.many (ds.map bitList), log))} ∧
    (draws o.qubo.length).real {ω : Draws | ∃ log, o.run ds.length fast target ⟨ω.1, ω.2.1, ω.2.2⟩ fuel =
      .ok (some (.many (ds.map bitList), log))} =
      (ds.map (annealProb (metropolisMatrix (quboAt o.qubo.length (entryOf o.qubo))) (if fast then 100 else o.ite) ts)).prod := by
  obtain ⟨J, ep, hp, h2, hE⟩ := opt_prepared o hq
  have := shots_law { o with J := J, ep := ep } h2 _ hE (if fast then 0.75 else o.R) target (if fast then 100 else o.ite) ts hts hpos
    fuel hf ds
  have e : {ω : Draws | ∃ log, o.run ds.length fast target ⟨ω.1, ω.2.1, ω.2.2⟩ fuel = .ok (some (.many (ds.map bitList), log))} =
      {ω | ∃ E' r', saShots { o with J := J, ep := ep } (reJ J) (if fast then 0.75 else o.R) target (if fast then 100 else o.ite)
        fuel ds.length (toRand ω) [] [] = some (E', ds.map bitList, r')} := by
    ext ω
    rw [Set.mem_setOf_eq, show (⟨ω.1, ω.2.1, ω.2.2⟩ : Rand) = toRand ω from rfl]
    simp only [Set.mem_setOf_eq, Opt.run, hp, bind, Except.bind]
    have hr : (reJ J).rows ≠ 0 := by
      show J.rows ≠ 0
      rw [h2]; exact NeZero.ne _
    rw [if_neg (by simp [hr])]
    cases saShots { o with J := J, ep := ep } (reJ J) (if fast then 0.75 else o.R) target (if fast then 100 else o.ite)
        fuel ds.length (toRand ω) [] [] with
    | none => simp [pure, Except.pure]
    | some p =>
      obtain ⟨E, qq, r⟩ := p
      simp [h1, pure, Except.pure]
  rw [e]
  exact this

/-- C106. With more and more steps per temperature the distribution of the returned bits tends to the Boltzmann distribution
of the energy of the QUBO at the last temperature. -/
theorem C106_limit (hq : ∀ row ∈ o.qubo, o.qubo.length ≤ row.length) (target : ℝ) (ts : List ℝ) (t : ℝ)
    (hts : Schedule o.R target o.Ts (ts ++ [t])) (hpos : ∀ s ∈ ts ++ [t], 0 < s) (fuel : ℕ) (hf : ts.length < fuel)
    (d : Fin o.qubo.length → Bool) :
    Filter.Tendsto (fun k => (draws o.qubo.length).real (returns { o with ite := k } false target fuel (bitList d)))
      Filter.atTop (nhds (boltzmann (quboAt o.qubo.length (entryOf o.qubo)) t d)) := by
  rw [Metric.tendsto_atTop]
  intro ε hε
  have hn : 0 < Fintype.card (Fin o.qubo.length) := by simpa using Nat.pos_of_ne_zero (NeZero.ne o.qubo.length)
  have hne : (∃ c d, quboAt o.qubo.length (entryOf o.qubo) c ≠ quboAt o.qubo.length (entryOf o.qubo) d) ∨
      ∀ t, Invariant (fun _ => (1 / 2 : ℝ) ^ Fintype.card (Fin o.qubo.length))
        (metropolisMatrix (quboAt o.qubo.length (entryOf o.qubo)) t) := by
    by_cases h : ∃ c d, quboAt o.qubo.length (entryOf o.qubo) c ≠ quboAt o.qubo.length (entryOf o.qubo) d
    · exact .inl h
    · push Not at h
      refine .inr fun t => ?_
      have := metropolis_invariant (quboAt o.qubo.length (entryOf o.qubo)) t hn
      rwa [show boltzmann (quboAt o.qubo.length (entryOf o.qubo)) t = _ from funext (boltzmann_const _ h t)] at this
  obtain ⟨k0, hk0⟩ := start_tendsto _ _ (fun t => metropolis_stoch _ t hn) hn t (hpos t (by simp)) t rfl hne ts d (ε / 2)
    (half_pos hε)
  refine ⟨k0, fun k hk => ?_⟩
  have := (C106_run { o with ite := k } hq false target (ts ++ [t]) hts hpos fuel (by simp; omega) d).2
  rw [this, Real.dist_eq]
  exact (hk0 k hk).trans_lt (half_lt_self hε)

/-- C106. Towards temperature 0 the Boltzmann distribution becomes uniform on the assignments of least energy. -/
theorem C106_cold (n : ℕ) (H : (Fin n → Bool) → ℝ) (d : Fin n → Bool) :
    Filter.Tendsto (fun T => boltzmann H T d) (nhdsWithin 0 (Set.Ioi 0))
      (nhds (open Classical in if ∀ c, H d ≤ H c then 1 / ((Finset.univ.filter fun e => ∀ c, H e ≤ H c).card : ℝ) else 0)) :=
  boltzmann_cold H d

/-- C106. Annealing solves the QUBO: for every cooling factor `0 < R < 1` and every `ε > 0`, if the target temperature is low
enough and then the number of steps per temperature large enough, a run returns an assignment of least energy with probability
at least `1 - ε`. -/
theorem C106_optimal (hq : ∀ row ∈ o.qubo, o.qubo.length ≤ row.length) (hR : 0 < o.R) (hR1 : o.R < 1) (hTs : 0 < o.Ts)
    (ε : ℝ) (hε : 0 < ε) :
    ∃ t0 > 0, ∀ target, 0 < target → target < t0 → ∃ fuel0, ∀ fuel ≥ fuel0, ∃ k0, ∀ k ≥ k0,
      1 - ε ≤ (draws o.qubo.length).real {ω | ∃ d : Fin o.qubo.length → Bool,
        (∀ c, quboAt o.qubo.length (entryOf o.qubo) d ≤ quboAt o.qubo.length (entryOf o.qubo) c) ∧
        ω ∈ returns { o with ite := k } false target fuel (bitList d)} := by
  classical
  generalize hH : quboAt o.qubo.length (entryOf o.qubo) = H
  set M : Finset (Fin o.qubo.length → Bool) := Finset.univ.filter fun e => ∀ c, H e ≤ H c with hM
  have hMne : M.Nonempty := by
    obtain ⟨a, ha⟩ := Finite.exists_min H
    exact ⟨a, by simpa [hM] using ha⟩
  -- the cold distribution
  have hcold : Filter.Tendsto (fun T => ∑ d ∈ M, boltzmann H T d) (nhdsWithin 0 (Set.Ioi 0)) (nhds 1) := by
    have h1 := tendsto_finset_sum M fun d _ => C106_cold _ H d
    have h2 : (∑ d ∈ M, if ∀ c, H d ≤ H c then 1 / (M.card : ℝ) else 0) = 1 := by
      rw [Finset.sum_congr rfl fun d hd => if_pos (by simpa [hM] using hd), Finset.sum_const, nsmul_eq_mul]
      exact mul_one_div_cancel (by exact_mod_cast hMne.card_pos.ne')
    rw [h2] at h1
    exact h1
  have hev : ∀ᶠ T in nhdsWithin (0 : ℝ) (Set.Ioi 0), 1 - ε < ∑ d ∈ M, boltzmann H T d :=
    hcold.eventually (lt_mem_nhds (by linarith))
  rw [eventually_nhdsWithin_iff, Metric.eventually_nhds_iff] at hev
  obtain ⟨δ, hδ, hev⟩ := hev
  refine ⟨min (δ * o.R) o.Ts, lt_min (mul_pos hδ hR) hTs, fun target h0 ht => ?_⟩
  obtain ⟨ts, t, hs1, hs2, hs3⟩ := schedule_exists o.R target hR hR1 h0 o.Ts (ht.trans_le (min_le_right _ _))
  have htpos : 0 < t := h0.trans (hs2 t (by simp))
  have htδ : t < δ := by
    have : t * o.R < δ * o.R := hs3.trans_lt (ht.trans_le (min_le_left _ _))
    exact lt_of_mul_lt_mul_right this hR.le
  have hb : 1 - ε < ∑ d ∈ M, boltzmann H t d := hev (by rw [Real.dist_eq, sub_zero, abs_of_pos htpos]; exact htδ) htpos
  refine ⟨ts.length + 1, fun fuel hf => ?_⟩
  have hpos : ∀ s ∈ ts ++ [t], 0 < s := fun s hs => h0.trans (hs2 s hs)
  have hlim := tendsto_finset_sum M fun d _ => hH ▸ C106_limit o hq target ts t hs1 hpos fuel (by omega) d
  obtain ⟨k0, hk0⟩ := Filter.eventually_atTop.1 (hlim.eventually (lt_mem_nhds hb))
  refine ⟨k0, fun k hk => ?_⟩
  have hset : {ω | ∃ d : Fin o.qubo.length → Bool, (∀ c, H d ≤ H c) ∧ ω ∈ returns { o with ite := k } false target fuel (bitList d)} =
      ⋃ d ∈ M, returns { o with ite := k } false target fuel (bitList d) := by
    ext ω
    simp [hM]
  rw [hset, measureReal_biUnion_finset]
  · exact (hk0 k hk).le
  · intro d _ d' _ hne
    rw [Function.onFun, Set.disjoint_left]
    rintro ω ⟨l, h1⟩ ⟨l', h2⟩
    have h3 : bitList d = bitList d' := by
      have := h1.symm.trans h2
      simp only [Except.ok.injEq, Option.some.injEq, Prod.mk.injEq, SAResult.single.injEq] at this
      exact this.1
    rw [bitList, bitList, List.ofFn_inj] at h3
    refine hne (funext fun i => ?_)
    have := congrFun h3 i
    revert this
    cases d i <;> cases d' i <;> simp
  · exact fun d _ => (C106_run { o with ite := k } hq false target (ts ++ [t]) hs1 hpos fuel (by simp; omega) d).1

/-! ## Examples -/

instance : NeZero (({ qubo := [[1, -3], [0, 1]] } : Opt).qubo.length) := ⟨by simp⟩

/-- A fast run down to temperature 3 has two temperatures. -/
example (d : Fin 2 → Bool) (fuel : ℕ) (h : 2 ≤ fuel) :
    (draws 2).real (returns { qubo := [[1, -3], [0, 1]] } true 3 fuel (bitList d)) =
      annealProb (metropolisMatrix (quboAt 2 (entryOf [[1, -3], [0, 1]]))) 100 [5, 3.75] d := by
  have := (C106_run ({ qubo := [[1, -3], [0, 1]] } : Opt) (by simp) true 3 [5, 3.75]
    (.step (by norm_num) (by
      rw [if_pos rfl, show (5 : ℝ) * 0.75 = 3.75 by norm_num]
      exact .step (by norm_num) (.stop (by norm_num)))) (by norm_num) fuel h d).2
  exact this

/-- Annealing with the default options finds the least energy of `x0 + x1 - 3 x0 x1`. -/
example (ε : ℝ) (hε : 0 < ε) : ∃ t0 > 0, ∀ target, 0 < target → target < t0 → ∃ fuel0, ∀ fuel ≥ fuel0, ∃ k0, ∀ k ≥ k0,
    1 - ε ≤ (draws 2).real (returns { qubo := [[1, -3], [0, 1]], ite := k } false target fuel [1, 1]) := by
  obtain ⟨t0, h0, h⟩ := C106_optimal ({ qubo := [[1, -3], [0, 1]] } : Opt) (by simp) (by norm_num) (by norm_num) (by norm_num) ε hε
  refine ⟨t0, h0, fun target h1 h2 => ?_⟩
  obtain ⟨f, hf⟩ := h target h1 h2
  refine ⟨f, fun fuel hfu => ?_⟩
  obtain ⟨k, hk⟩ := hf fuel hfu
  refine ⟨k, fun k' hk' => (hk k' hk').trans (measureReal_mono ?_)⟩
  rintro ω ⟨d, hd, hω⟩
  have h3 := hd fun _ => true
  have hv : ∀ d : Fin 2 → Bool, quboAt 2 (entryOf [[1, -3], [0, 1]]) d =
      (if d 0 then 1 else 0) + (if d 0 ∧ d 1 then -3 else 0) + (if d 1 then 1 else 0) := by
    intro d
    simp [quboAt, Fin.sum_univ_two, entryOf]
  have h4 : quboAt 2 (entryOf [[1, -3], [0, 1]]) d ≤ quboAt 2 (entryOf [[1, -3], [0, 1]]) fun _ => true := h3
  rw [hv, hv] at h4
  have h5 : bitList (n := 2) d = [1, 1] := by
    revert h4
    rw [bitList]
    simp only [List.ofFn_succ, List.ofFn_zero]
    change _ → [if d 0 then (1 : ℤ) else 0, if d 1 then 1 else 0] = [1, 1]
    cases d 0 <;> cases d 1 <;> simp <;> norm_num
  exact h5 ▸ hω

end

end Blueqat
