import Verif.Props.VqeResult
import Verif.Props.Numpy

/-!
# Property C45: the measurement sampler
-/

set_option linter.unusedSimpArgs false
set_option linter.unusedVariables false

namespace Blueqat

open Spec

noncomputable section

/-! ## The circuit -/

theorem maxOver_ints (l : List ℕ) : ∀ (a : ℤ) (b : ℕ), (∀ q ∈ l, q < b) → a < b →
    ∃ m, maxOver ((l.map (fun q : ℕ => (q : ℤ))).map (fun m => .atom (.int m))) (some a) = .ok m ∧ m < b := by
  induction l with
  | nil => intro a b _ h; exact ⟨a, rfl, h⟩
  | cons q l ih =>
    intro a b h ha
    simp only [List.map_cons, maxOver, maximumIdxSingle]
    exact ih _ b (fun x hx => h x (by simp [hx])) (max_lt ha (by exact_mod_cast h q (by simp)))

/-- The statement `circuit.measure[meas]`. -/
theorem append_measure (c : OpsVal) (meas : List ℕ) (h : ∀ q ∈ meas, q < c.n) :
    c.append (.measure (.tup ((meas.map (fun q : ℕ => (q : ℤ))).map (fun m => .atom (.int m))))) =
      .ok ⟨c.n, c.ops ++ [.measure (.tup ((meas.map (fun q : ℕ => (q : ℤ))).map (fun m => .atom (.int m))))]⟩ := by
  obtain ⟨m, h1, h2⟩ : ∃ m, maxOver ((meas.map (fun q : ℕ => (q : ℤ))).map (fun m => .atom (.int m))) none = .ok m ∧
      m < c.n := by
    cases meas with
    | nil => exact ⟨-1, rfl, by omega⟩
    | cons q l =>
      simp only [List.map_cons, maxOver, maximumIdxSingle]
      exact maxOver_ints l q c.n (fun x hx => h x (by simp [hx])) (by exact_mod_cast h q (by simp))
  simp only [OpsVal.append, Gate.targets, getMaximumIndex, h1, newQubits]
  congr 2
  omega

theorem measure_denotes (n : ℕ) (meas : List ℕ) :
    GateDenotes n (.measure (.tup ((meas.map (fun q : ℕ => (q : ℤ))).map (fun m => .atom (.int m))))) (meas.map .meas) := by
  refine ⟨meas, ⟨meas.map (fun q : ℕ => .int (q : ℤ)), by simp [List.map_map], ?_⟩, rfl⟩
  induction meas with
  | nil => rfl
  | cons q l ih => exact ⟨[(q : ℤ)], _, by simp [AtomDenotes, pyIndex], ih, by simp⟩

theorem freshRun_shots (n : ℕ) (gates : List Gate) (k : ℕ) (ig : Bool) (rnd : ℕ → ℝ) :
    freshRun n gates ⟨some k, some "shots", ig, rnd⟩ = freshRun n gates ⟨some k, none, ig, rnd⟩ := by
  simp [freshRun, npRunArgs, npParse, npReturnTypes]

/-! ## Reading a bit string backwards -/

theorem mapM_ok {α β : Type} (f : α → Except PyErr β) (g : α → β) (l : List α) (h : ∀ a ∈ l, f a = .ok (g a)) :
    l.mapM f = .ok (l.map g) := by
  induction l with
  | nil => rfl
  | cons a l ih =>
    rw [List.mapM_cons, h a (by simp), ih (fun x hx => h x (by simp [hx]))]; rfl

theorem reduceBits_eq (n : ℕ) (creg : ℕ → Bool) (meas : List ℕ) (h : ∀ q ∈ meas, q < n) :
    reduceBits (bitString n creg) (meas.map (fun q : ℕ => (q : ℤ))) =
      .ok (meas.map (fun m => if creg (n - 1 - m) then 1 else 0)) := by
  have h1 : (bitString n creg).toList.reverse.mapM intOfChar =
      .ok (((List.range n).map (fun q => if creg q then 1 else 0)).reverse) := by
    rw [bitString, String.toList_ofList, ← List.map_reverse, List.mapM_map, ← List.map_reverse]
    refine mapM_ok _ _ _ (fun q _ => ?_)
    rw [Function.comp_apply]
    cases creg q <;> simp [intOfChar] <;> decide
  simp only [reduceBits, h1, bind, Except.bind]
  rw [List.mapM_map]
  refine mapM_ok _ _ _ (fun m hm => ?_)
  have hm' := h m hm
  have : ¬ ((m : ℤ) < 0) := by omega
  simp only [Function.comp_apply, listAt, this, if_false, Int.toNat_natCast]
  rw [List.getElem?_reverse (by simpa using hm')]
  simp only [List.length_map, List.length_range]
  rw [List.getElem?_map, List.getElem?_range (by omega)]
  rfl

/-- What `reduceCounter` does when all keys can be read. -/
theorem reduceCounter_eq (meas : List ℤ) (K : String → List ℕ) : ∀ (c : Counter) (acc : PyDict (List ℕ) ℕ),
    (∀ p ∈ c, reduceBits p.1 meas = .ok (K p.1)) →
    reduceCounter meas c acc = .ok (c.foldl (fun (r : PyDict (List ℕ) ℕ) p => r.set (K p.1) p.2) acc) := by
  intro c
  induction c with
  | nil => intro acc _; rfl
  | cons p c ih =>
    intro acc h
    obtain ⟨s, v⟩ := p
    simp only [reduceCounter, h (s, v) (by simp), bind, Except.bind, List.foldl_cons]
    exact ih _ (fun p hp => h p (by simp [hp]))

/-! ## Counters -/

theorem countOf_get (c : Counter) (h : (c.map Prod.fst).Nodup) (key : String) :
    countOf c key = (PyDict.get c key).getD 0 := by
  induction c with
  | nil => rfl
  | cons p c ih =>
    obtain ⟨a, b⟩ := p
    have hn : a ∉ c.map Prod.fst ∧ (c.map Prod.fst).Nodup := by simpa using h
    by_cases ha : a = key
    · subst ha
      have h0 : c.filter (fun p => decide (p.1 = a)) = [] := by
        rw [List.filter_eq_nil_iff]
        intro p hp; simp; rintro rfl; exact hn.1 (List.mem_map_of_mem hp)
      simp [countOf, PyDict.get, h0]
    · have := ih hn.2
      simp [countOf, PyDict.get, ha] at this ⊢
      exact this

/-- The counts a run returns, as far as C45 needs them. -/
theorem shots_counter (n : ℕ) (hn : 0 < n) (gates : List Gate) (es : List Elem) (hd : GatesDenote n gates es)
    (hv : ∀ e ∈ es, e.Valid n) (k : ℕ) (rnd : ℕ → ℝ) (hr : InUnit rnd) :
    ∃ c rest, runShots ⟨n, gates⟩ k rnd = .ok (c, rest) ∧ (c.map Prod.fst).Nodup ∧ (∀ p ∈ c, 0 < p.2) ∧
      ∀ key, (PyDict.get c key).getD 0 =
        (shotStates phSim n es k rnd).countP (fun s => decide (bitString n s.creg = key)) := by
  obtain ⟨c, rest, h1, h2⟩ := C16_counts_exact n hn gates es hd hv k false rnd hr
  obtain ⟨c', h3, -, -, h4, h5⟩ := C16_counts n gates k false rnd _ rest h1
  cases h3
  refine ⟨c, rest, ?_, h4, fun p hp => (h5 p hp).1, fun key => by rw [← h2, countOf_get c h4]⟩
  show asShots (freshRun n gates ⟨some k, some "shots", false, rnd⟩) = _
  rw [freshRun_shots, h1]; rfl

theorem bitString_inj {n : ℕ} {f g : ℕ → Bool} (h : bitString n f = bitString n g) : ∀ q < n, f q = g q := by
  intro q hq
  have h1 := congrArg (fun s : String => s.toList[q]?) h
  simp only [bitString, String.toList_ofList, List.getElem?_map, List.getElem?_range hq, Option.map_some,
    Option.some.injEq] at h1
  cases hf : f q <;> cases hg : g q <;> simp_all

theorem shotStates_length (ph : ℝ → ℂ) (n : ℕ) (es : List Elem) : ∀ k rnd, (shotStates ph n es k rnd).length = k := by
  intro k
  induction k with
  | zero => intro _; rfl
  | succ k ih => intro rnd; simp [shotStates, ih]

/-! ## C45 -/

/-- C45: what the sampler returns. If the reported bits determine the shot, the value for every key is the fraction of
the shots in which the *mirrored* qubits `n-1-m`, for `m` in `meas`, spell the key. The circuit keeps the measurement. -/
theorem C45_mirrored (c : OpsVal) (hn : 0 < c.n) (es : List Elem) (hd : GatesDenote c.n c.ops es)
    (hv : ∀ e ∈ es, e.Valid c.n) (meas : List ℕ) (hm : ∀ q ∈ meas, q < c.n) (k : ℕ) (rnd : ℕ → ℝ) (hr : InUnit rnd)
    (hinj : ∀ s ∈ shotStates phSim c.n (es ++ meas.map .meas) k rnd,
      ∀ t ∈ shotStates phSim c.n (es ++ meas.map .meas) k rnd,
      (∀ m ∈ meas, s.creg (c.n - 1 - m) = t.creg (c.n - 1 - m)) → ∀ q < c.n, s.creg q = t.creg q) :
    ∃ d rest, measurementSampler k c (meas.map (fun q : ℕ => (q : ℤ))) rnd =
        (⟨c.n, c.ops ++ [.measure (.tup ((meas.map (fun q : ℕ => (q : ℤ))).map (fun m => .atom (.int m))))]⟩,
          .ok (d, rest)) ∧
      (d.map Prod.fst).Nodup ∧
      ∀ key, (d.get key).getD 0 =
          shotFraction (shotStates phSim c.n (es ++ meas.map .meas) k rnd) (meas.map (fun m => c.n - 1 - m)) key ∧
        (d.get key = none ↔
          shotFraction (shotStates phSim c.n (es ++ meas.map .meas) k rnd) (meas.map (fun m => c.n - 1 - m)) key = 0) := by
  set shots := shotStates phSim c.n (es ++ meas.map .meas) k rnd with hshots
  set n := c.n with hcn
  have hd' : GatesDenote n (c.ops ++ [.measure (.tup ((meas.map (fun q : ℕ => (q : ℤ))).map (fun m => .atom (.int m))))])
      (es ++ meas.map .meas) := gatesDenote_append hd ⟨_, [], measure_denotes n meas, rfl, by simp⟩
  have hv' : ∀ e ∈ es ++ meas.map .meas, e.Valid n := by
    intro e he
    rcases List.mem_append.1 he with h | h
    · exact hv e h
    · obtain ⟨q, hq, rfl⟩ := List.mem_map.1 h; exact hm q hq
  obtain ⟨cnt, rest, h1, h2, h3, h4⟩ := shots_counter n hn _ _ hd' hv' k rnd hr
  -- every key of the counter is the bit string of a shot
  have hex : ∀ p ∈ cnt, ∃ s ∈ shots, p.1 = bitString n s.creg := by
    intro p hp
    have := h4 p.1
    rw [PyDict.get_of_mem h2 (v := p.2) hp] at this
    have h0 := h3 p hp
    simp only [Option.getD_some] at this
    rw [this, List.countP_pos_iff] at h0
    obtain ⟨s, hs, he⟩ := h0
    exact ⟨s, hs, (by simpa using he : bitString n s.creg = p.1).symm⟩
  -- the key the sampler makes of a string
  let K : String → List ℕ := fun b => meas.map (fun m => if b.toList[n - 1 - m]? = some '1' then 1 else 0)
  have hK : ∀ f : ℕ → Bool, K (bitString n f) = meas.map (fun m => if f (n - 1 - m) then 1 else 0) := by
    intro f
    refine List.map_congr_left (fun m hm' => ?_)
    have : n - 1 - m < n := by omega
    simp only [bitString, String.toList_ofList, List.getElem?_map, List.getElem?_range this, Option.map_some]
    cases f (n - 1 - m) <;> simp
  have hK' : ∀ s : MState, K (bitString n s.creg) = shotKey (meas.map (fun m => n - 1 - m)) s := by
    intro s; rw [hK, shotKey, List.map_map]; rfl
  have hred : ∀ p ∈ cnt, reduceBits p.1 (meas.map (fun q : ℕ => (q : ℤ))) = .ok (K p.1) := by
    intro p hp
    obtain ⟨s, -, he⟩ := hex p hp
    rw [he, hK, reduceBits_eq n _ meas hm]
  have hKinj : ∀ s ∈ shots, ∀ t ∈ shots, K (bitString n s.creg) = K (bitString n t.creg) →
      bitString n s.creg = bitString n t.creg := by
    intro s hs t ht h
    have : ∀ q < n, s.creg q = t.creg q := by
      refine hinj s hs t ht (fun m hm' => ?_)
      rw [hK, hK] at h
      have := List.map_inj_left.1 h m hm'
      cases h1 : s.creg (n - 1 - m) <;> cases h2 : t.creg (n - 1 - m) <;> simp_all
    rw [bitString, bitString]
    congr 1
    exact List.map_congr_left (fun q hq => by rw [this q (by simpa using hq)])
  have hnd : (cnt.map (fun p => K p.1)).Nodup := by
    have : cnt.map (fun p => K p.1) = (cnt.map Prod.fst).map K := by rw [List.map_map]; rfl
    rw [this, List.nodup_map_iff_inj_on h2]
    intro a ha b hb hab
    obtain ⟨p, hp, rfl⟩ := List.mem_map.1 ha
    obtain ⟨q, hq, rfl⟩ := List.mem_map.1 hb
    obtain ⟨s, hs, he⟩ := hex p hp
    obtain ⟨t, ht, hf⟩ := hex q hq
    rw [he, hf] at hab ⊢
    exact hKinj s hs t ht hab
  have hfold := PyDict.foldl_set K cnt [] (by simpa using hnd)
  refine ⟨cnt.map (fun p => (K p.1, (p.2 : ℝ) / k)), rest, ?_, by simpa [List.map_map, Function.comp_def] using hnd, ?_⟩
  · rw [measurementSampler, append_measure c meas hm]
    simp only [h1, ← hcn, bind, Except.bind, reduceCounter_eq _ K cnt [] hred]
    rw [hfold]
    simp [List.map_map, Function.comp_def]
  · intro key
    have hlen : shots.length = k := shotStates_length _ _ _ _ _
    have hcount : ∀ s ∈ shots, shots.countP (fun t => decide (bitString n t.creg = bitString n s.creg)) =
        shots.countP (fun t => decide (shotKey (meas.map (fun m => n - 1 - m)) t =
          shotKey (meas.map (fun m => n - 1 - m)) s)) := by
      intro s hs
      refine List.countP_congr (fun t ht => ?_)
      simp only [decide_eq_true_eq, ← hK']
      exact ⟨fun h => by rw [h], hKinj t ht s hs⟩
    by_cases hkey : ∃ s ∈ shots, shotKey (meas.map (fun m => n - 1 - m)) s = key
    · obtain ⟨s, hs, rfl⟩ := hkey
      have hpos : 0 < shots.countP (fun t => decide (bitString n t.creg = bitString n s.creg)) :=
        List.countP_pos_iff.2 ⟨s, hs, by simp⟩
      have hmem : PyDict.get cnt (bitString n s.creg) =
          some (shots.countP (fun t => decide (bitString n t.creg = bitString n s.creg))) := by
        have := h4 (bitString n s.creg)
        rw [← hshots] at this
        cases hg : PyDict.get cnt (bitString n s.creg) with
        | none => rw [hg] at this; simp only [Option.getD_none] at this; omega
        | some v => rw [hg] at this; simp only [Option.getD_some] at this; rw [this]
      have hg : PyDict.get (cnt.map (fun p => (K p.1, (p.2 : ℝ) / k))) (shotKey (meas.map (fun m => n - 1 - m)) s) =
          some (shotFraction shots (meas.map (fun m => n - 1 - m)) (shotKey (meas.map (fun m => n - 1 - m)) s)) := by
        have hmem' := PyDict.get_mem hmem
        refine PyDict.get_of_mem (by simpa [PyDict.WF, List.map_map, Function.comp_def] using hnd) ?_
        refine List.mem_map.2 ⟨_, hmem', ?_⟩
        rw [hK', shotFraction, hcount s hs, hlen]
      refine ⟨by rw [hg]; rfl, ?_⟩
      rw [hg]
      simp only [reduceCtorEq, false_iff]
      rw [shotFraction, ← hcount s hs, div_eq_zero_iff, not_or]
      refine ⟨by exact_mod_cast hpos.ne', ?_⟩
      have : 0 < shots.length := List.length_pos_of_mem hs
      exact_mod_cast this.ne'
    · have h0 : shotFraction shots (meas.map (fun m => n - 1 - m)) key = 0 := by
        have : shots.countP (fun s => decide (shotKey (meas.map (fun m => n - 1 - m)) s = key)) = 0 := by
          rw [List.countP_eq_zero]
          intro s hs; simp only [decide_eq_true_eq]; exact fun h => hkey ⟨s, hs, h⟩
        rw [shotFraction, this]; simp
      have hg : PyDict.get (cnt.map (fun p => (K p.1, (p.2 : ℝ) / k))) key = none := by
        rw [PyDict.get_eq_none]
        intro hmem
        simp only [List.map_map, List.mem_map, Function.comp_apply] at hmem
        obtain ⟨p, hp, h⟩ := hmem
        obtain ⟨s, hs, he⟩ := hex p hp
        exact hkey ⟨s, hs, by rw [← hK', ← he]; exact h⟩
      rw [hg, h0]; simp

/-- C45, partial: with all qubits measured in order, as `VqeResult.get_probs` does, the value for every key is the fraction
of the shots with the *reversed* outcome. Missing: the outcomes are not in the order of `meas` (`C45_order_refuted`), and
with fewer qubits shots are lost (`C45_lost_refuted`). -/
theorem C45_all_qubits_partial (c : OpsVal) (hn : 0 < c.n) (es : List Elem) (hd : GatesDenote c.n c.ops es)
    (hv : ∀ e ∈ es, e.Valid c.n) (k : ℕ) (rnd : ℕ → ℝ) (hr : InUnit rnd) :
    ∃ c' d rest, measurementSampler k c (qubitRange c.n) rnd = (c', .ok (d, rest)) ∧ (d.map Prod.fst).Nodup ∧
      ∀ key, (d.get key).getD 0 =
        shotFraction (shotStates phSim c.n (es ++ (List.range c.n).map .meas) k rnd) (List.range c.n) key.reverse := by
  obtain ⟨d, rest, h1, h2, h3⟩ := C45_mirrored c hn es hd hv (List.range c.n) (by simp) k rnd hr (by
    intro s _ t _ h q hq
    have := h (c.n - 1 - q) (by simp; omega)
    rwa [show c.n - 1 - (c.n - 1 - q) = q by omega] at this)
  refine ⟨_, d, rest, h1, h2, fun key => ?_⟩
  rw [(h3 key).1, shotFraction, shotFraction]
  congr 2
  refine List.countP_congr (fun s _ => ?_)
  have hrev : (List.range c.n).map (fun m => c.n - 1 - m) = (List.range c.n).reverse := by
    refine List.ext_getElem (by simp) (fun i h1 h2 => ?_)
    simp
  rw [decide_eq_true_iff, decide_eq_true_iff, shotKey, hrev, List.map_reverse, List.reverse_eq_iff]
  rfl

/-- C45, partial: on one qubit the sampler does what it should: the value for every key is the fraction of the shots with
that outcome. -/
theorem C45_one_qubit_partial (c : OpsVal) (hn : c.n = 1) (es : List Elem) (hd : GatesDenote c.n c.ops es)
    (hv : ∀ e ∈ es, e.Valid c.n) (meas : List ℕ) (hm : ∀ q ∈ meas, q < c.n) (hne : meas ≠ []) (k : ℕ) (rnd : ℕ → ℝ)
    (hr : InUnit rnd) : ∃ c' d rest, measurementSampler k c (meas.map (fun q : ℕ => (q : ℤ))) rnd = (c', .ok (d, rest)) ∧
      (d.map Prod.fst).Nodup ∧
      ∀ key, (d.get key).getD 0 = shotFraction (shotStates phSim c.n (es ++ meas.map .meas) k rnd) meas key := by
  obtain ⟨d, rest, h1, h2, h3⟩ := C45_mirrored c (by omega) es hd hv meas hm k rnd hr (by
    intro s _ t _ h q hq
    obtain ⟨m, hm'⟩ := List.exists_mem_of_ne_nil meas hne
    have h := h m hm'
    have := hm m hm'
    rwa [show c.n - 1 - m = q by omega] at h)
  refine ⟨_, d, rest, h1, h2, fun key => ?_⟩
  rw [(h3 key).1]
  congr 1
  conv_rhs => rw [← List.map_id meas]
  exact List.map_congr_left (fun m hm' => by have := hm m hm'; simp; omega)

/-- Hypotheses met by a circuit that entangles two qubits. -/
example : ∃ c : OpsVal, ∃ es : List Elem, 0 < c.n ∧ GatesDenote c.n c.ops es ∧ (∀ e ∈ es, e.Valid c.n) ∧ es.length = 2 :=
  ⟨⟨2, [on1 .h 0, on2 .cx 0 1]⟩, [.one .h 0, .two .cx 0 1], by norm_num,
    ⟨_, _, gateDenotes_on1 2 .h 0, ⟨_, _, gateDenotes_on2 2 .cx 0 1 (by norm_num), rfl, rfl⟩, rfl⟩,
    by simp [Elem.Valid], rfl⟩

theorem filter_bit0_false : (Finset.range 4).filter (fun i => i.testBit 0 = false) = {0, 2} := by decide

theorem filter_bit1_false : (Finset.range 4).filter (fun i => i.testBit 1 = false) = {0, 1} := by decide

theorem filter_bit0_true : (Finset.range 4).filter (fun i => i.testBit 0 = true) = {1, 3} := by decide

/-- C45 is false: `Circuit(2).x[0]` measured on the qubits `(0, 1)` always gives the outcome `(1, 0)`, and the sampler
reports `(0, 1)`. -/
theorem C45_order_refuted : ∃ (c : OpsVal) (es : List Elem), GatesDenote c.n c.ops es ∧ (∀ e ∈ es, e.Valid c.n) ∧
    ∀ rnd, InUnit rnd → ∃ c' d rest, measurementSampler 1 c [0, 1] rnd = (c', .ok (d, rest)) ∧
      shotFraction (shotStates phSim c.n (es ++ [0, 1].map .meas) 1 rnd) [0, 1] [1, 0] = 1 ∧
      d.get [1, 0] = none ∧ d.get [0, 1] = some 1 := by
  have hd : GatesDenote 2 [on1 .x 0] [.one .x 0] := ⟨_, _, gateDenotes_on1 2 .x 0, rfl, rfl⟩
  refine ⟨⟨2, [on1 .x 0]⟩, [.one .x 0], hd, by simp [Elem.Valid], fun rnd hr => ?_⟩
  have hshot : ∃ s, shotStates phSim 2 ([.one .x 0] ++ [0, 1].map .meas) 1 rnd = [s] ∧ s.creg 0 = true ∧ s.creg 1 = false := by
    have e1 : app mX 0 (fun j => if j = 0 then 1 else 0) = fun j => if j = 1 then 1 else 0 := by
      funext i
      by_cases hi : i.testBit 0
      · have : (flipBit 0 i = 0) ↔ i = 1 := by
          rw [flipBit]
          constructor
          · intro h; exact Nat.xor_eq_zero_iff.1 h
          · rintro rfl; rfl
        simp [app, mX, hi, this]
      · have h1 : i ≠ 1 := by rintro rfl; simp at hi
        have h2 : flipBit 0 i ≠ 0 := by
          rw [flipBit]; intro h; exact h1 (Nat.xor_eq_zero_iff.1 h)
        simp [app, mX, hi, h1, h2]
    have p1 : prob 2 0 false (fun j => if j = 1 then 1 else 0) = 0 := by
      show ∑ i ∈ (Finset.range 4).filter (fun i => i.testBit 0 = false), _ = _
      rw [filter_bit0_false]; simp
    have p2 : prob 2 0 true (fun j => if j = 1 then 1 else 0) = 1 := by
      show ∑ i ∈ (Finset.range 4).filter (fun i => i.testBit 0 = true), _ = _
      rw [filter_bit0_true]; simp
    have p3 : prob 2 1 false (collapse 2 0 true (fun j => if j = 1 then 1 else 0)) = 1 := by
      show ∑ i ∈ (Finset.range 4).filter (fun i => i.testBit 1 = false), _ = _
      rw [filter_bit1_false]; simp [collapse, p2]
    have r0 : ¬ rnd 0 < 0 := not_lt.2 (hr 0).1
    refine ⟨_, rfl, ?_, ?_⟩
    · simp [steps, Elem.step, Elem.unitary, matrix1, initState, e1, p1, p3, r0, (hr 1).2]
    · simp [steps, Elem.step, Elem.unitary, matrix1, initState, e1, p1, p3, r0, (hr 1).2]
  obtain ⟨s, hs, h0, h1⟩ := hshot
  obtain ⟨d, rest, h2, h3, h4⟩ := C45_mirrored ⟨2, [on1 .x 0]⟩ (by norm_num) [.one .x 0] hd (by simp [Elem.Valid]) [0, 1]
    (by simp) 1 rnd hr (by
      simp only [hs, List.mem_singleton]
      rintro s rfl t rfl _ _ _; rfl)
  refine ⟨_, d, rest, h2, ?_, ?_, ?_⟩
  · simp only [hs]; simp [shotFraction, shotKey, h0, h1]
  · rw [(h4 _).2]; simp only [hs]; simp [shotFraction, shotKey, h0, h1]
  · have := h4 [0, 1]
    simp only [hs] at this
    simp [shotFraction, shotKey, h0, h1] at this
    cases hg : d.get [0, 1] with
    | none => exact absurd hg this.2
    | some v => rw [hg] at this; simpa using this.1

/-- C45 is false in a second way: different outcomes of the other qubits overwrite each other. `Circuit(2).h[0]` measured
on qubit 0, two shots with outcomes 0 and 1: the sampler reports `(0,)` with 1/2 and nothing else. -/
theorem C45_lost_refuted : ∃ (c : OpsVal) (es : List Elem) (rnd : ℕ → ℝ), GatesDenote c.n c.ops es ∧
    (∀ e ∈ es, e.Valid c.n) ∧ InUnit rnd ∧ ∃ c' rest, measurementSampler 2 c [0] rnd = (c', .ok ([([0], 1 / 2)], rest)) ∧
      shotFraction (shotStates phSim c.n (es ++ [0].map .meas) 2 rnd) [0] [1] = 1 / 2 := by
  have hd : GatesDenote 2 [on1 .h 0] [.one .h 0] := ⟨_, _, gateDenotes_on1 2 .h 0, rfl, rfl⟩
  set rnd : ℕ → ℝ := fun k => if k = 0 then 0 else 3 / 4 with hrnd
  have hr : InUnit rnd := by intro k; simp only [hrnd]; split_ifs <;> norm_num
  have p1 : prob 2 0 false (app mH 0 (fun j => if j = 0 then 1 else 0)) = 1 / 2 := by
    show ∑ i ∈ (Finset.range 4).filter (fun i => i.testBit 0 = false), _ = _
    rw [filter_bit0_false]; simp [app, mH, flipBit]
  obtain ⟨s, t, hst, hs0, hs1, ht0, ht1⟩ : ∃ s t, shotStates phSim 2 ([.one .h 0] ++ [0].map .meas) 2 rnd = [s, t] ∧
      s.creg 0 = false ∧ s.creg 1 = false ∧ t.creg 0 = true ∧ t.creg 1 = false := by
    refine ⟨_, _, rfl, ?_⟩
    simp [steps, Elem.step, Elem.unitary, matrix1, initState, p1, hrnd]
    norm_num
  refine ⟨⟨2, [on1 .h 0]⟩, [.one .h 0], rnd, hd, by simp [Elem.Valid], hr, ?_⟩
  have hd' : GatesDenote 2 ([on1 .h 0] ++ [.measure (.tup ((([0] : List ℕ).map (fun q : ℕ => (q : ℤ))).map
      (fun m => .atom (.int m))))]) ([.one .h 0] ++ [0].map .meas) :=
    gatesDenote_append hd ⟨_, [], measure_denotes 2 [0], rfl, by simp⟩
  obtain ⟨cnt, rest, h1, h2, h3, h4⟩ := shots_counter 2 (by norm_num) _ _ hd' (by simp [Elem.Valid]) 2 rnd hr
  have bs : bitString 2 s.creg = "00" := by simp [bitString, List.range_succ, hs0, hs1]
  have bt : bitString 2 t.creg = "10" := by simp [bitString, List.range_succ, ht0, ht1]
  have h4' : ∀ p ∈ cnt, p.2 = 1 ∧ (p.1 = "00" ∨ p.1 = "10") := by
    intro p hp
    have := h4 p.1
    rw [PyDict.get_of_mem h2 (v := p.2) hp, hst] at this
    have h0 := h3 p hp
    simp only [Option.getD_some, List.countP_cons, List.countP_nil, bs, bt] at this
    by_cases ha : "00" = p.1
    · rw [← ha] at this ⊢; simp at this; exact ⟨this, Or.inl rfl⟩
    · by_cases hb : "10" = p.1
      · rw [← hb] at this ⊢; simp at this; exact ⟨this, Or.inr rfl⟩
      · simp [ha, hb] at this; omega
  have hne : cnt ≠ [] := by
    rintro rfl
    have := h4 "00"
    rw [hst] at this
    simp [PyDict.get, bs, List.countP_cons] at this
  have hred : ∀ p ∈ cnt, reduceBits p.1 [0] = .ok [0] := by
    intro p hp
    rcases (h4' p hp).2 with h | h <;> rw [h] <;> rfl
  have hfold : ∀ (l : Counter), l ≠ [] → (∀ p ∈ l, p.2 = 1) → ∀ acc : PyDict (List ℕ) ℕ, (acc = [] ∨ acc = [([0], 1)]) →
      l.foldl (fun (r : PyDict (List ℕ) ℕ) p => r.set [0] p.2) acc = [([0], 1)] := by
    intro l hl
    induction l with
    | nil => exact absurd rfl hl
    | cons p l ih =>
      intro h acc hacc
      have e : PyDict.set acc [0] p.2 = [([0], 1)] := by
        rw [h p (by simp)]; rcases hacc with rfl | rfl <;> simp [PyDict.set]
      rw [List.foldl_cons, e]
      by_cases hl' : l = []
      · rw [hl']; rfl
      · exact ih hl' (fun p hp => h p (by simp [hp])) _ (Or.inr rfl)
  refine ⟨⟨2, [on1 .h 0] ++ [.measure (.tup [.atom (.int 0)])]⟩, rest, ?_, ?_⟩
  · have := append_measure ⟨2, [on1 .h 0]⟩ [0] (by simp)
    simp only [List.map_cons, List.map_nil, Nat.cast_zero] at this h1
    simp only [measurementSampler, List.map_cons, List.map_nil, this, h1, bind, Except.bind,
      reduceCounter_eq [0] (fun _ => [0]) cnt [] hred, hfold cnt hne (fun p hp => (h4' p hp).1) [] (Or.inl rfl)]
    simp
  · simp only [hst]; simp [shotFraction, shotKey, hs0, ht0, List.countP_cons]

end

end Blueqat
