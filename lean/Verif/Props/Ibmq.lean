import Verif.Ibmq
import Verif.Spec.Ibmq
import Verif.Props.Qasm
import Verif.Props.Utils

/-!
# C65: the ibmq backend
-/

set_option linter.unusedSimpArgs false
set_option linter.unusedVariables false

namespace Blueqat

open Spec

noncomputable section

variable {Circ Bk Job Res Draw K : Type} (qk : Qiskit Circ Bk Job Res Draw K) (fmt : ℝ → String)

theorem steps_same {n : ℕ} (es : List Elem) {s u : MState} (h : SameUpToPhase s u) :
    SameUpToPhase (steps phSim n es s) (steps phDoc n es u) := by
  induction es generalizing s u with
  | nil => exact h
  | cons e es ih =>
    refine ih ?_
    obtain ⟨h1, h2, z, hz, h3⟩ := h
    have hu : e.IsUnitary → SameUpToPhase (e.step phSim n s) (e.step phDoc n u) := by
      intro he
      obtain ⟨w, hw, -, h⟩ := elem_phSim e
      have e1 : e.step phDoc n u = { u with psi := e.unitary phDoc u.psi } := by
        cases e <;> first | rfl | exact absurd he id
      have e2 : e.step phSim n s = { s with psi := e.unitary phSim s.psi } := by
        cases e <;> first | rfl | exact absurd he id
      rw [e1, e2]
      refine ⟨h1, h2, w * z, by simp [hz, hw], ?_⟩
      show e.unitary phSim s.psi = _
      rw [h, h3, elem_smul]
      funext i
      simp [mul_assoc]
    cases e with
    | one k t => exact hu trivial
    | two k c t => exact hu trivial
    | three k a b c => exact hu trivial
    | meas t =>
      simp only [Elem.step, h1, h2, h3, prob_smul hz, collapse_smul hz]
      split_ifs
      · exact ⟨rfl, rfl, z, hz, rfl⟩
      · exact ⟨rfl, rfl, z, hz, rfl⟩
    | reset t =>
      simp only [Elem.step, h1, h2, h3, prob_smul hz, collapse_smul hz]
      split_ifs
      · exact ⟨rfl, rfl, z, hz, rfl⟩
      · refine ⟨rfl, rfl, z, hz, ?_⟩
        exact elem_smul phDoc (Elem.one .x t) z _

theorem programShots_states {n : ℕ} {stmts : List QStmt} {es : List Elem}
    {lib : String → List ℝ → List ℕ → Option (List Basic)} (hm : Means lib n stmts es) (k : ℕ) (rnd : ℕ → ℝ) :
    ∃ states, programShots lib n stmts k rnd = some states ∧
      states.map MState.creg = (shotStates phSim n es k rnd).map MState.creg := by
  induction k generalizing rnd with
  | zero => exact ⟨[], rfl, rfl⟩
  | succ k ih =>
    obtain ⟨s', h1, h2, h3, -⟩ := hm (initState rnd)
    obtain ⟨k2, k3, -⟩ := steps_same (n := n) es (same_refl (initState rnd))
    obtain ⟨states, h4, h5⟩ := ih s'.rnd
    refine ⟨s' :: states, by simp only [programShots, h1, h4], ?_⟩
    simp only [shotStates, List.map_cons, h5]
    rw [h2, h3, k2, k3]

/-- The text with the characters in reverse order. -/
def reversedText (s : String) : String := String.ofList s.toList.reverse

theorem reversedText_twice (s : String) : reversedText (reversedText s) = s := by
  simp [reversedText]

theorem countOf_reversed (d : List (String × ℕ)) (key : String) :
    countOf (d.map fun p => (reversedText p.1, p.2)) key = countOf d (reversedText key) := by
  simp only [countOf, List.filter_map, List.map_map]
  congr 1
  have : (fun p : String × ℕ => decide (p.1 = key)) ∘ (fun p => (reversedText p.1, p.2)) =
      fun p : String × ℕ => decide (p.1 = reversedText key) := by
    funext p
    simp only [Function.comp, decide_eq_decide]
    constructor
    · intro h; rw [← h, reversedText_twice]
    · intro h; rw [h, reversedText_twice]
  rw [this]
  rfl

theorem registerText_reversed (n : ℕ) (creg : ℕ → Bool) : registerText n creg = reversedText (bitString n creg) := by
  simp [registerText, reversedText, bitString]

/-- Qiskit is installed and executes every program that has a meaning as an ideal machine with the random numbers
`rnd` does. -/
def RunsPrograms (qk : Qiskit Circ Bk Job Res Draw K) (bk : Option Bk) (kw : K) (read : String → Option ℝ)
    (rnd : ℕ → ℝ) : Prop :=
  qk.importExn = none ∧ ∀ text n m stmts (k : ℕ), parseProgram read text = some (n, m, stmts) →
    (∀ s, (qasmRun qelib n stmts s).isSome) →
    ∃ c b job res counts, qk.fromQasm text = .ok c ∧ (bk = some b ∨ bk = none ∧ qk.aer = .ok b) ∧
      qk.execute c b k kw = .ok job ∧ qk.result job = .ok res ∧ qk.counts res = .ok counts ∧
      IdealCounts read qelib text k rnd counts

/-- **C65.** On an ideal Qiskit, `run_with_ibmq(shots=k)` of a circuit with valid targets (without CU2, which `qelib1.inc`
does not have, C29) returns every key once, written with qubit 0 first, with the number of shots of the circuit that end
with these classical bits. Without `shots`, 1024 shots are made. -/
theorem C65_counts (read : String → Option ℝ) (S : Set ℝ) (hS : AngleSet S) (hf : NumberFormat fmt read S)
    (n : ℕ) (gates : List Gate) (es : List Elem) (hd : GatesDenote n gates es) (hv : ∀ e ∈ es, e.Valid n)
    (hz : ∀ T, Gate.g3 .ccz T ∉ gates) (hcu2 : ∀ φ lam T, Gate.g2 (.cu2 φ lam) T ∉ gates)
    (ha : ∀ g ∈ gates, AnglesIn S g) (bk : Option Bk) (kw : K) (rnd : ℕ → ℝ) (hq : RunsPrograms qk bk kw read rnd)
    (shots : Option ℕ) :
    ∃ counts, ibmqRun qk fmt n gates bk (shots.map fun k : ℕ => (k : ℤ)) none kw = .ok (.counts counts) ∧
      (counts.map Prod.fst).Nodup ∧
      ∀ key, countOf counts key =
        (shotStates phSim n es (shots.getD 1024) rnd).countP (fun s => decide (bitString n s.creg = key)) := by
  obtain ⟨lines, h1, -, h2, h5, h4⟩ := emits_means fmt (notCcz_of hz) hd hv
  have hm := h2 hcu2
  have htext : qaRun fmt n gates true = .ok (programText fmt n lines) := by
    simp only [qaRun, h4, pyJoin_eq]; rfl
  have hparse := parseProgram_text hf h1 (h5 S hS ha)
  obtain ⟨himp, hrun⟩ := hq
  obtain ⟨c, b, job, res, counts, q1, q2, q3, q4, q5, q6⟩ := hrun (programText fmt n lines) n n _ (shots.getD 1024) hparse
    (fun s => by obtain ⟨s', e, -⟩ := hm s; rw [e]; rfl)
  obtain ⟨n', m', stmts', states, r1, r2, r3, r4⟩ := q6
  rw [hparse] at r1
  simp only [Option.some.injEq, Prod.mk.injEq] at r1
  obtain ⟨rfl, rfl, rfl⟩ := r1
  obtain ⟨states', p1, p2⟩ := programShots_states hm (shots.getD 1024) rnd
  rw [r2] at p1
  cases p1
  obtain ⟨k1, k2⟩ := C58_reverse_keys counts r3
  have hk1 : reverseKeys counts = counts.map (fun p => (reversedText p.1, p.2)) := k1
  refine ⟨reverseKeys counts, ?_, k2, fun key => ?_⟩
  · have hs : (shots.map fun k : ℕ => (k : ℤ)).getD 1024 = ((shots.getD 1024 : ℕ) : ℤ) := by cases shots <;> rfl
    rcases q2 with rfl | ⟨rfl, h⟩
    · simp [ibmqRun, qasmParsableRun, htext, ibmqRunner, ibmqReturns, himp, ibmqCircuit, q1, ibmqExecute, hs, q3,
        ibmqCounts, q4, q5]
    · simp [ibmqRun, qasmParsableRun, htext, ibmqRunner, ibmqReturns, himp, ibmqCircuit, q1, ibmqExecute, h, hs, q3,
        ibmqCounts, q4, q5]
  · rw [hk1, countOf_reversed, r4]
    have e : ∀ l : List MState, l.countP (fun s => decide (registerText n s.creg = reversedText key)) =
        (l.map MState.creg).countP (fun c => decide (bitString n c = key)) := by
      intro l
      rw [List.countP_map]
      congr 1
      funext s
      simp only [Function.comp, registerText_reversed, decide_eq_decide]
      constructor
      · intro h; rw [← reversedText_twice (bitString n s.creg), h, reversedText_twice]
      · intro h; rw [h]
    rw [e, p2, List.countP_map]
    rfl

/-- **C65.** With the same random numbers the ibmq backend on an ideal Qiskit and the numpy backend return the same
counts for every key. -/
theorem C65_agrees_with_numpy (read : String → Option ℝ) (S : Set ℝ) (hS : AngleSet S) (hf : NumberFormat fmt read S)
    (n : ℕ) (hn : 0 < n) (gates : List Gate) (es : List Elem) (hd : GatesDenote n gates es) (hv : ∀ e ∈ es, e.Valid n)
    (hz : ∀ T, Gate.g3 .ccz T ∉ gates) (hcu2 : ∀ φ lam T, Gate.g2 (.cu2 φ lam) T ∉ gates)
    (ha : ∀ g ∈ gates, AnglesIn S g) (bk : Option Bk) (kw : K) (rnd : ℕ → ℝ) (hr : InUnit rnd)
    (hq : RunsPrograms qk bk kw read rnd) (k : ℕ) :
    ∃ counts counts' rest, ibmqRun qk fmt n gates bk (some (k : ℤ)) none kw = .ok (.counts counts) ∧
      freshRun n gates ⟨some k, none, false, rnd⟩ = .ok (.shots counts', rest) ∧
      ∀ key, countOf counts key = countOf counts' key := by
  obtain ⟨c, h1, -, h2⟩ := C65_counts qk fmt read S hS hf n gates es hd hv hz hcu2 ha bk kw rnd hq (some k)
  obtain ⟨c', rest, k1, k2⟩ := C16_counts_exact n hn gates es hd hv k false rnd hr
  exact ⟨c, c', rest, h1, k1, fun key => by rw [h2, k2]; rfl⟩

/-- **C65, arguments.** An unknown `returns` is a ValueError whether or not Qiskit is installed; otherwise a failed import
is reported as ImportError if it was one and as ValueError if not (`"_exception"` apart). -/
theorem C65_arguments (qasm : String) (bk : Option Bk) (shots : Option ℤ) (kw : K) :
    (∀ r, r ∉ ["shots", "draw", "_exception", "qiskit_circuit", "qiskit_job", "qiskit_result"] →
      ibmqRunner qk qasm bk shots (some r) kw = .error .valueError) ∧
    (∀ r e, (r = none ∨ ∃ t ∈ ["shots", "draw", "qiskit_circuit", "qiskit_job", "qiskit_result"], r = some t) →
      qk.importExn = some e →
      ibmqRunner qk qasm bk shots r kw = .error (if e = .importError then .importError else .valueError)) ∧
    (qk.importExn = none → ibmqRunner qk qasm bk shots (some "_exception") kw = .ok .none) := by
  refine ⟨fun r hr => ?_, fun r e hr he => ?_, fun h => ?_⟩
  · simp only [ibmqRunner, ibmqReturns, if_neg hr]
  · have : ∃ t, ibmqReturns r = .ok t ∧ t ≠ "_exception" := by
      rcases hr with rfl | ⟨t, ht, rfl⟩
      · exact ⟨"shots", rfl, by decide⟩
      · refine ⟨t, ?_, ?_⟩
        · rw [ibmqReturns, if_pos]
          simp only [List.mem_cons, List.not_mem_nil, or_false] at ht ⊢
          tauto
        · rintro rfl
          revert ht
          decide
    obtain ⟨t, h1, h2⟩ := this
    simp only [ibmqRunner, h1, he, ibmqImportFailed, if_neg h2]
  · simp [ibmqRunner, ibmqReturns, h]

/-- **C65, stages.** The values of `returns` before the counts: the circuit Qiskit read, its drawing, the job, the result. -/
theorem C65_stages (hi : qk.importExn = none) (qasm : String) (c : Circ) (hc : qk.fromQasm qasm = .ok c) (b : Bk)
    (shots : Option ℤ) (kw : K) :
    ibmqRunner qk qasm (some b) shots (some "qiskit_circuit") kw = .ok (.circuit c) ∧
    ibmqRunner qk qasm (some b) shots (some "draw") kw = (qk.draw c kw).map .drawing ∧
    ∀ job, qk.execute c b (shots.getD 1024) kw = .ok job →
      ibmqRunner qk qasm (some b) shots (some "qiskit_job") kw = .ok (.job job) ∧
      ∀ res, qk.result job = .ok res →
        ibmqRunner qk qasm (some b) shots (some "qiskit_result") kw = .ok (.result res) := by
  refine ⟨?_, ?_, fun job hj => ⟨?_, fun res hr => ?_⟩⟩
  · simp [ibmqRunner, ibmqReturns, hi, ibmqCircuit, hc]
  · simp [ibmqRunner, ibmqReturns, hi, ibmqCircuit, hc]
  · simp [ibmqRunner, ibmqReturns, hi, ibmqCircuit, hc, ibmqExecute, hj]
  · simp [ibmqRunner, ibmqReturns, hi, ibmqCircuit, hc, ibmqExecute, hj, ibmqCounts, hr]

/-- **C65 is false for `returns="_exception"`.** It is documented to return the exception raised while importing Qiskit,
but whatever that exception is, the call raises UnboundLocalError. -/
theorem C65_exception_refuted (qasm : String) (bk : Option Bk) (shots : Option ℤ) (kw : K) (e : PyErr)
    (h : qk.importExn = some e) :
    ibmqRunner qk qasm bk shots (some "_exception") kw = .error .unboundLocalError := by
  simp [ibmqRunner, ibmqReturns, h, ibmqImportFailed]

/-! ## Non-vacuity -/

theorem countOf_dedup (l : List String) (key : String) :
    countOf ((l.dedup).map fun t => (t, l.count t)) key = l.count key := by
  simp only [countOf, List.filter_map, List.map_map]
  have : ((fun p : String × ℕ => decide (p.1 = key)) ∘ fun t => (t, l.count t)) = fun t => decide (t = key) := rfl
  rw [this]
  by_cases h : key ∈ l
  · have h2 : l.dedup.filter (fun t => decide (t = key)) = [key] := by
      have hn := List.nodup_dedup l
      have hk : key ∈ l.dedup := List.mem_dedup.2 h
      have e := List.filter_beq (l := l.dedup) key
      rw [List.count_eq_one_of_mem hn hk] at e
      exact e
    rw [h2]; simp
  · have h2 : l.dedup.filter (fun t => decide (t = key)) = [] := by
      rw [List.filter_eq_nil_iff]
      intro t ht
      simp only [decide_eq_true_eq]
      rintro rfl
      exact h (List.mem_dedup.1 ht)
    rw [h2]; simp [List.count_eq_zero_of_not_mem h]

open Classical in
/-- The ideal Qiskit: it parses the text and runs the shots. -/
def idealQiskit (read : String → Option ℝ) (rnd : ℕ → ℝ) : Qiskit String Unit (String × ℤ) (String × ℤ) Unit Unit where
  importExn := none
  fromQasm t := .ok t
  draw _ _ := .ok ()
  aer := .ok ()
  execute t _ k _ := .ok (t, k)
  result j := .ok j
  counts r :=
    match parseProgram read r.1 with
    | none => .error .valueError
    | some (n, m, stmts) =>
      match programShots qelib n stmts r.2.toNat rnd with
      | none => .error .valueError
      | some states =>
        let keys := states.map fun s => registerText m s.creg
        .ok (keys.dedup.map fun t => (t, keys.count t))

theorem programShots_some {n : ℕ} {stmts : List QStmt} (h : ∀ s, (qasmRun qelib n stmts s).isSome) (k : ℕ) (rnd : ℕ → ℝ) :
    ∃ states, programShots qelib n stmts k rnd = some states := by
  induction k generalizing rnd with
  | zero => exact ⟨[], rfl⟩
  | succ k ih =>
    obtain ⟨s, hs⟩ := Option.isSome_iff_exists.1 (h (initState rnd))
    obtain ⟨l, hl⟩ := ih s.rnd
    exact ⟨s :: l, by simp only [programShots, hs, hl]⟩

theorem idealQiskit_runs (read : String → Option ℝ) (rnd : ℕ → ℝ) :
    RunsPrograms (idealQiskit read rnd) none () read rnd := by
  refine ⟨rfl, fun text n m stmts k hp hs => ?_⟩
  obtain ⟨states, h⟩ := programShots_some hs k rnd
  refine ⟨text, (), (text, k), (text, k), (states.map fun s => registerText m s.creg).dedup.map fun t =>
      (t, (states.map fun s => registerText m s.creg).count t), rfl, .inr ⟨rfl, rfl⟩, rfl, rfl, ?_, n, m, stmts, states, hp, h, ?_, ?_⟩
  · simp only [idealQiskit, hp, Int.toNat_natCast, h]
  · simp only [List.map_map]
    have : (Prod.fst ∘ fun t : String => (t, (states.map fun s => registerText m s.creg).count t)) = id := rfl
    rw [this, List.map_id]
    exact List.nodup_dedup _
  · intro key
    rw [countOf_dedup, List.count_eq_countP, List.countP_map]
    congr 1

/-- The hypotheses can be met: the circuit `Circuit(3).h[0].crz(π)[0, 1].ccx[0, 1, 2].m[0:2]` on the ideal Qiskit. -/
example (rnd : ℕ → ℝ) (hr : InUnit rnd) : ∃ counts counts' rest,
    ibmqRun (idealQiskit dyadicRead rnd) dyadicFmt 3 qasmDemo none (some ((100 : ℕ) : ℤ)) none () = .ok (.counts counts) ∧
      freshRun 3 qasmDemo ⟨some ((100 : ℕ) : ℤ), none, false, rnd⟩ = .ok (.shots counts', rest) ∧
      ∀ key, countOf counts key = countOf counts' key :=
  C65_agrees_with_numpy _ dyadicFmt dyadicRead dyadicPi dyadicPi_angles dyadic_format 3 (by decide) qasmDemo _
    qasmDemo_denotes qasmDemo_valid qasmDemo_noccz (by simp [qasmDemo]) qasmDemo_angles none () rnd hr
    (idealQiskit_runs dyadicRead rnd) 100

end

end Blueqat
