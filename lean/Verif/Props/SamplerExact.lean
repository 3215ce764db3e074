import Verif.Props.Sampler
import Verif.Spec.Kept

/-!
# C45 for all sets of measured qubits
-/

set_option linter.unusedSimpArgs false
set_option linter.unusedVariables false

namespace Blueqat

open Spec

noncomputable section

theorem counterAdd_keys (c : Counter) (x : String) :
    (c.add x).map Prod.fst = if x ∈ c.map Prod.fst then c.map Prod.fst else c.map Prod.fst ++ [x] := by
  induction c with
  | nil => rfl
  | cons p c ih =>
    obtain ⟨a, v⟩ := p
    simp only [Counter.add]
    by_cases h : a = x
    · subst h; simp
    · rw [if_neg h, List.map_cons, ih]
      by_cases hx : x ∈ c.map Prod.fst
      · simp only [if_pos hx, List.map_cons, List.mem_cons, hx, or_true, if_true]
      · have : ¬ (x = a ∨ x ∈ c.map Prod.fst) := by rintro (h' | h'); exacts [h h'.symm, hx h']
        simp only [if_neg hx, List.map_cons, List.mem_cons, if_neg this, List.cons_append]

theorem counter_keys (l : List String) : ∀ c : Counter,
    (l.foldl Counter.add c).map Prod.fst = c.map Prod.fst ++ (firstSeen l).filter (fun y => decide (y ∉ c.map Prod.fst)) := by
  induction l with
  | nil => intro c; simp [firstSeen]
  | cons x l ih =>
    intro c
    rw [List.foldl_cons, ih, counterAdd_keys]
    by_cases hx : x ∈ c.map Prod.fst
    · rw [if_pos hx, firstSeen, List.filter_cons, if_neg (by simpa using hx), List.filter_filter]
      congr 1
      apply List.filter_congr
      intro y _
      by_cases hy : y ∈ c.map Prod.fst
      · simp only [hy, not_true_eq_false, decide_false, Bool.false_and]
      · have : y ≠ x := fun h => hy (h ▸ hx)
        simp only [hy, not_false_eq_true, decide_true, this, ne_eq, Bool.true_and]
    · rw [if_neg hx, firstSeen, List.filter_cons, if_pos (by simpa using hx), List.filter_filter, List.append_assoc]
      congr 1
      rw [List.singleton_append]
      congr 1
      apply List.filter_congr
      intro y _
      by_cases hy : y ∈ c.map Prod.fst <;> by_cases hyx : y = x <;> simp [hy, hyx]

/-- The counter of a run, with its order. -/
theorem plainShots_counter {n : ℕ} (hn : 0 < n) {gates : List Gate} {es : List Elem} (hd : GatesDenote n gates es)
    (hv : ∀ e ∈ es, e.Valid n) (k : ℕ) : ∀ (p : PSt) (res : Counter), InUnit p.rnd →
    ∃ p', plainShots n gates k p res =
      .ok (p', ((shotStates phSim n es k p.rnd).map (fun s => bitString n s.creg)).foldl Counter.add res) := by
  induction k with
  | zero => intro p res _; exact ⟨p, rfl⟩
  | succ k ih =>
    intro p res hP
    obtain ⟨p1, hp1, hR⟩ := plainGates_refine (P := True) gates es hd hv (fun _ _ => .inl trivial) ⟨q0 n, List.replicate n 0, p.rnd⟩
      (initState p.rnd) (pRel_init n p.rnd (fun _ => hP))
    have hrnd : InUnit p1.rnd := fun k => by rw [hR.rnd]; exact (hR.good trivial).2 k
    have hne : p1.cr ≠ [] := by rw [hR.cr]; simp [cregList]; omega
    obtain ⟨p', h⟩ := ih p1 (if p1.cr = [] then res else res.add (cregsKey p1.cr)) hrnd
    refine ⟨p', ?_⟩
    simp only [plainShots, hp1]
    rw [h, if_neg hne, hR.cr, cregsKey_cregList, hR.rnd]
    rfl

theorem get_foldl_set (K : String → List ℕ) (key : List ℕ) : ∀ (c : Counter) (acc : PyDict (List ℕ) ℕ),
    (c.foldl (fun (r : PyDict (List ℕ) ℕ) p => r.set (K p.1) p.2) acc).get key =
      match (c.filter (fun p => decide (K p.1 = key))).getLast? with
      | some p => some p.2
      | none => acc.get key := by
  intro c
  induction c with
  | nil => intro acc; rfl
  | cons p c ih =>
    intro acc
    rw [List.foldl_cons, ih]
    by_cases h : K p.1 = key
    · rw [List.filter_cons, if_pos (by simpa using h), List.getLast?_cons]
      cases hl : (c.filter (fun p => decide (K p.1 = key))).getLast? with
      | some q => simp
      | none => simp [PyDict.get_set, h]
    · rw [List.filter_cons, if_neg (by simpa using h)]
      cases hl : (c.filter (fun p => decide (K p.1 = key))).getLast? with
      | some q => rfl
      | none => simp [PyDict.get_set, Ne.symm h]

theorem get_map_snd (f : ℕ → ℝ) (key : List ℕ) : ∀ d : PyDict (List ℕ) ℕ,
    PyDict.get (d.map (fun p => (p.1, f p.2))) key = (d.get key).map f := by
  intro d
  induction d with
  | nil => rfl
  | cons p d ih =>
    obtain ⟨a, b⟩ := p
    simp only [List.map_cons, PyDict.get]
    split_ifs
    · rfl
    · exact ih

theorem foldl_set_nodup (K : String → List ℕ) : ∀ (c : Counter) (acc : PyDict (List ℕ) ℕ), PyDict.WF acc →
    PyDict.WF (c.foldl (fun (r : PyDict (List ℕ) ℕ) p => r.set (K p.1) p.2) acc) := by
  intro c
  induction c with
  | nil => intro acc h; exact h
  | cons p c ih => intro acc h; exact ih _ (PyDict.wf_set h _ _)

/-- C45, exactly: for every list of measured qubits and every key the sampler reports the fraction of the shots with *one* complete
outcome, the one that appeared last among those that have the key on the mirrored qubits; it reports nothing for a key without such
an outcome. -/
theorem C45_exact (c : OpsVal) (hn : 0 < c.n) (es : List Elem) (hd : GatesDenote c.n c.ops es)
    (hv : ∀ e ∈ es, e.Valid c.n) (meas : List ℕ) (hm : ∀ q ∈ meas, q < c.n) (k : ℕ) (rnd : ℕ → ℝ) (hr : InUnit rnd) :
    ∃ d rest, measurementSampler k c (meas.map (fun q : ℕ => (q : ℤ))) rnd =
        (⟨c.n, c.ops ++ [.measure (.tup ((meas.map (fun q : ℕ => (q : ℤ))).map (fun m => .atom (.int m))))]⟩,
          .ok (d, rest)) ∧
      (d.map Prod.fst).Nodup ∧
      ∀ key, d.get key = keptFraction c.n meas (shotStates phSim c.n (es ++ meas.map .meas) k rnd) key := by
  have hd' : GatesDenote c.n (c.ops ++ [.measure (.tup ((meas.map (fun q : ℕ => (q : ℤ))).map (fun m => .atom (.int m))))])
      (es ++ meas.map .meas) := gatesDenote_append hd ⟨_, [], measure_denotes c.n meas, rfl, by simp⟩
  have hv' : ∀ e ∈ es ++ meas.map .meas, e.Valid c.n := by
    intro e he
    rcases List.mem_append.1 he with h | h
    · exact hv e h
    · obtain ⟨q, hq, rfl⟩ := List.mem_map.1 h; exact hm q hq
  generalize hshots : shotStates phSim c.n (es ++ meas.map .meas) k rnd = shots
  have hlen : shots.length = k := by rw [← hshots]; exact shotStates_length _ _ _ _ _
  obtain ⟨cnt, rest, h1, h2, h3, h4⟩ := shots_counter c.n hn _ _ hd' hv' k rnd hr
  rw [hshots] at h4
  -- the same counter with its order
  have hcnt : cnt = (shots.map (fun s => bitString c.n s.creg)).foldl Counter.add [] := by
    obtain ⟨p', hp⟩ := plainShots_counter hn hd' hv' k (npNewCtx c.n rnd).core [] hr
    obtain ⟨be, ctx, h5, h6⟩ := run_of_shots hp
    have hparse : npParse (some (k : ℤ)) (some "shots") = .ok (k, "shots") := by simp [npParse, npReturnTypes]
    have h7 : runShots ⟨c.n, c.ops ++ [.measure (.tup ((meas.map (fun q : ℕ => (q : ℤ))).map (fun m => .atom (.int m))))]⟩ k rnd =
        .ok ((shots.map (fun s => bitString c.n s.creg)).foldl Counter.add [], ctx.rnd) := by
      show asShots (freshRun _ _ ⟨some k, some "shots", false, rnd⟩) = _
      simp only [freshRun, npRunArgs, hparse, Int.toNat_natCast, h5]
      rw [← hshots]
      rfl
    rw [h7] at h1
    cases h1
    rfl
  have hkeys : cnt.map Prod.fst = firstSeen (shots.map (fun s => bitString c.n s.creg)) := by
    rw [hcnt, counter_keys]; simp
  have hex : ∀ p ∈ cnt, ∃ s ∈ shots, p.1 = bitString c.n s.creg := by
    intro p hp
    have := h4 p.1
    rw [PyDict.get_of_mem h2 (v := p.2) hp] at this
    have h0 := h3 p hp
    simp only [Option.getD_some] at this
    rw [this, List.countP_pos_iff] at h0
    obtain ⟨s, hs, he⟩ := h0
    exact ⟨s, hs, (by simpa using he : bitString c.n s.creg = p.1).symm⟩
  have hred : ∀ p ∈ cnt, reduceBits p.1 (meas.map (fun q : ℕ => (q : ℤ))) = .ok (mirroredKey c.n meas p.1) := by
    intro p hp
    obtain ⟨s, -, he⟩ := hex p hp
    rw [he, reduceBits_eq c.n _ meas hm, mirroredKey]
    congr 1
    refine List.map_congr_left (fun m hm' => ?_)
    have := hm m hm'
    have : c.n - 1 - m < c.n := by omega
    simp only [bitString, String.toList_ofList, List.getElem?_map, List.getElem?_range this, Option.map_some]
    cases s.creg (c.n - 1 - m) <;> simp
  refine ⟨(cnt.foldl (fun (r : PyDict (List ℕ) ℕ) p => r.set (mirroredKey c.n meas p.1) p.2) []).map
    (fun p => (p.1, (p.2 : ℝ) / k)), rest, ?_, ?_, ?_⟩
  · rw [measurementSampler, append_measure c meas hm]
    simp only [h1, bind, Except.bind, reduceCounter_eq _ (mirroredKey c.n meas) cnt [] hred]
  · have := foldl_set_nodup (mirroredKey c.n meas) cnt [] (by simp [PyDict.WF])
    simpa [PyDict.WF, List.map_map, Function.comp_def] using this
  · intro key
    rw [get_map_snd (fun v => (v : ℝ) / k), get_foldl_set, keptFraction, keptOutcome, ← hkeys, List.filter_map, List.getLast?_map]
    simp only [Function.comp_def]
    cases hl : (cnt.filter (fun p => decide (mirroredKey c.n meas p.1 = key))).getLast? with
    | none => rfl
    | some p =>
      have hp : p ∈ cnt := (List.mem_filter.1 (List.mem_of_getLast? hl)).1
      have := h4 p.1
      rw [PyDict.get_of_mem h2 (v := p.2) hp] at this
      simp only [Option.getD_some] at this
      simp only [Option.map_some, this, hlen]

/-- Four shots on two qubits with the outcomes 10, 00, 10, 11; measured is qubit 0, reported is qubit 1. For the key `[0]` only the
count of 00 is kept (1/4 instead of 3/4), for `[1]` that of 11. -/
example (f : Bool → Bool → MState) (hf : ∀ a b, (f a b).creg 0 = a ∧ (f a b).creg 1 = b) :
    let shots := [f true false, f false false, f true false, f true true]
    keptOutcome 2 [0] shots [0] = some "00" ∧ keptOutcome 2 [0] shots [1] = some "11" ∧
      keptFraction 2 [0] shots [0] = some (1 / 4) := by
  intro shots
  have hb : ∀ a b, bitString 2 (f a b).creg = String.ofList [if a then '1' else '0', if b then '1' else '0'] := by
    intro a b
    simp [bitString, List.range_succ, (hf a b).1, (hf a b).2]
  have h1 : keptOutcome 2 [0] shots [0] = some "00" := by
    simp only [keptOutcome, shots, List.map_cons, List.map_nil, hb]; decide
  refine ⟨h1, ?_, ?_⟩
  · simp only [keptOutcome, shots, List.map_cons, List.map_nil, hb]; decide
  · have h2 : shots.countP (fun s => decide (bitString 2 s.creg = "00")) = 1 := by
      simp only [shots, List.countP_cons, List.countP_nil, hb]; decide
    simp [keptFraction, h1, h2, shots]

end

end Blueqat
