import Verif.Experimental
import Verif.Props.Sympy

/-!
# C27: `circuit_to_unitary`
-/

set_option linter.unusedSimpArgs false
set_option linter.unusedVariables false

namespace Blueqat

open Spec

open Finset

/-! ## Basis states -/

theorem app_x_basis (t j : ℕ) : app mX t (basis j) = basis (flipBit t j) := by
  funext i
  have : (flipBit t i = j) ↔ (i = flipBit t j) :=
    ⟨fun h => by rw [← h, flipBit_flipBit], fun h => by rw [h, flipBit_flipBit]⟩
  simp [app, mX, basis, this]

theorem foldl_flip_basis (L : List ℕ) (j : ℕ) :
    unitaries phSim (L.map (Elem.one .x)) (basis j) = basis (L.foldl (fun j t => flipBit t j) j) := by
  rw [unitaries_map]
  induction L generalizing j with
  | nil => rfl
  | cons t L ih =>
    simp only [List.foldl_cons]
    rw [show (Elem.one G1.x t).unitary phSim (basis j) = basis (flipBit t j) from app_x_basis t j, ih]

theorem shift_and_ne (k i : ℕ) : (decide ((1 <<< k) &&& i ≠ 0)) = i.testBit k := by
  rw [Nat.one_shiftLeft, Nat.and_comm]
  have := and_two_pow_ne i k
  rw [← this]; by_cases h : i &&& 2 ^ k = 0 <;> simp [h]

theorem mem_ctuBitmask {n i k : ℕ} : k ∈ ctuBitmask n i ↔ k < n ∧ i.testBit k = true := by
  simp only [ctuBitmask, List.mem_filter, List.mem_range, shift_and_ne]

theorem testBit_foldl_flip (L : List ℕ) (hL : L.Nodup) (a k : ℕ) :
    (L.foldl (fun j t => flipBit t j) a).testBit k = (a.testBit k != decide (k ∈ L)) := by
  induction L generalizing a with
  | nil => simp
  | cons t L ih =>
    rw [List.foldl_cons, ih (List.nodup_cons.1 hL).2, testBit_flipBit]
    have ht := (List.nodup_cons.1 hL).1
    by_cases h : k = t
    · subst h; simp [ht]
    · simp [h, Ne.symm h]

theorem flips_bitmask {n i : ℕ} (hi : i < 2 ^ n) : (ctuBitmask n i).foldl (fun j t => flipBit t j) 0 = i := by
  apply Nat.eq_of_testBit_eq
  intro k
  have hnd : (ctuBitmask n i).Nodup := List.Nodup.filter _ List.nodup_range
  rw [testBit_foldl_flip _ hnd]
  simp only [mem_ctuBitmask, Nat.zero_testBit, Bool.false_bne]
  by_cases hk : k < n
  · simp [hk]
  · have : i.testBit k = false :=
      Nat.testBit_lt_two_pow (lt_of_lt_of_le hi (Nat.pow_le_pow_right (by norm_num) (by omega)))
    simp [hk, this]

/-! ## The circuit of a column -/

theorem maxOver_lt {n : ℕ} (L : List ℕ) (hL : ∀ k ∈ L, k < n) (acc : Option ℤ) (ha : ∀ v, acc = some v → v < n)
    (h0 : acc = none → (-1 : ℤ) < n) :
    ∃ v : ℤ, maxOver (L.map fun k : ℕ => Item.atom (.int k)) acc = .ok v ∧ v < n := by
  induction L generalizing acc with
  | nil =>
    refine ⟨acc.getD (-1), rfl, ?_⟩
    cases acc with
    | none => exact h0 rfl
    | some v => exact ha v rfl
  | cons k L ih =>
    have hk := hL k (by simp)
    simp only [List.map_cons, maxOver, maximumIdxSingle]
    refine ih (fun k h => hL k (by simp [h])) _ ?_ (by simp)
    intro v hv
    cases acc with
    | none => simp at hv; omega
    | some a => have := ha a rfl; simp at hv; omega

theorem atomsDenote_ints (n : ℤ) (hn : 0 ≤ n) (L : List ℕ) :
    AtomsDenote n (L.map fun k : ℕ => Atom.int k) (L.map fun k : ℕ => (k : ℤ)) := by
  induction L with
  | nil => rfl
  | cons k L ih =>
    refine ⟨[(k : ℤ)], _, ?_, ih, rfl⟩
    simp only [AtomDenotes, pyIndex]
    rw [if_neg (by omega)]

theorem ctuCircuit_ok {n : ℕ} {ops : List Gate} {es : List Elem} (hd : GatesDenote n ops es) (i : ℕ) :
    ∃ ops', ctuCircuit ⟨n, ops⟩ i = .ok ⟨n, ops'⟩ ∧
      GatesDenote n ops' ((ctuBitmask n i).map (Elem.one .x) ++ es) := by
  by_cases h : ctuBitmask n i = []
  · refine ⟨ops, ?_, by rw [h]; exact hd⟩
    simp [ctuCircuit, h, OpsVal.add]
  · obtain ⟨v, hv1, hv2⟩ := maxOver_lt (n := n) (ctuBitmask n i) (fun k hk => (mem_ctuBitmask.1 hk).1) none (by simp)
      (by omega)
    refine ⟨.g1 .x (.tup ((ctuBitmask n i).map fun k : ℕ => .atom (.int k))) :: ops, ?_,
      ⟨_, es, ⟨ctuBitmask n i, ?_, rfl⟩, hd, rfl⟩⟩
    rotate_left 1
    · refine ⟨(ctuBitmask n i).map fun k : ℕ => Atom.int k, by simp, atomsDenote_ints n (by omega) _⟩
    · simp only [ctuCircuit, h, ne_eq, not_false_eq_true, if_true, OpsVal.append, Gate.targets, getMaximumIndex, hv1,
        OpsVal.add, newQubits, List.nil_append, List.singleton_append, Except.ok.injEq, OpsVal.mk.injEq, and_true]
      push_cast
      omega

/-! ## One run -/

theorem run_phSim {n : ℕ} {gates : List Gate} {es : List Elem} (hd : GatesDenote n gates es)
    (hv : ∀ e ∈ es, e.Valid n) (hu : ∀ e ∈ es, e.IsUnitary) (rnd : ℕ → ℝ) :
    ∀ ig, (npRunArgs n gates NpBackend.new ⟨none, some "statevector", ig, rnd⟩).2 =
      .ok (.statevector (if ig then ignoreGlobalPhase (amplitudes n (unitaries phSim es (basis 0))) else
        amplitudes n (unitaries phSim es (basis 0))), rnd) := by
  intro ig
  obtain ⟨p', res', h1, h2, -⟩ := plainShots_refine (P := False) hd hv (fun e he => .inr (hu e he)) 1
    (npNewCtx n rnd).core [] (fun h => h.elim) (by simp) (by simp)
  have h2' := h2 (steps phSim n es (initState rnd)) rfl
  rw [steps_unitary phSim n es hu] at h2'
  obtain ⟨be, ctx, h3, h4⟩ := run_of_shots h1
  have hparse : npParse none (some "statevector") = .ok (1, "statevector") := by decide
  simp only [npRunArgs, hparse]
  rw [show (1 : ℤ).toNat = 1 from rfl, h3]
  have e1 : ctx.qubits = vec n (unitaries phSim es (initState rnd).psi) := by
    have := h2'.q; rw [← h4] at this; exact this
  have e2 : ctx.rnd = rnd := by have := h2'.rnd; rw [← h4] at this; exact this
  simp only [Bool.false_eq_true, if_false, npReturn, if_true, e1, e2]
  rfl

theorem ctuLoop_ok {n : ℕ} {ops : List Gate} {es : List Elem} (hd : GatesDenote n ops es)
    (hv : ∀ e ∈ es, e.Valid n) (hu : ∀ e ∈ es, e.IsUnitary) (rnd : ℕ → ℝ) (is : List ℕ) (hi : ∀ i ∈ is, i < 2 ^ n) :
    ∀ ig, ctuLoop ⟨n, ops⟩ none ig is rnd =
      .ok (is.map fun i => if ig then ignoreGlobalPhase (amplitudes n (unitaries phSim es (basis i))) else
        amplitudes n (unitaries phSim es (basis i)), rnd) := by
  intro ig
  induction is with
  | nil => rfl
  | cons i is ih =>
    obtain ⟨ops', h1, h2⟩ := ctuCircuit_ok hd i
    have hrun := run_phSim h2 (fun e he => by
        rcases List.mem_append.1 he with h | h
        · obtain ⟨k, hk, rfl⟩ := List.mem_map.1 h; exact (mem_ctuBitmask.1 hk).1
        · exact hv e h) (fun e he => by
        rcases List.mem_append.1 he with h | h
        · obtain ⟨k, hk, rfl⟩ := List.mem_map.1 h; trivial
        · exact hu e h) rnd ig
    rw [unitaries_append, foldl_flip_basis, flips_bitmask (hi i (by simp))] at hrun
    simp only [ctuLoop, h1, hrun, ih fun i h => hi i (by simp [h]), List.map_cons]

/-! ## Linearity -/

theorem unitaries_sum (es : List Elem) (c : ℕ → ℂ) (m : ℕ) :
    unitaries phSim es (fun i => ∑ j ∈ range m, c j * basis j i) =
      fun i => ∑ j ∈ range m, c j * unitaries phSim es (basis j) i := by
  induction m with
  | zero =>
    have := unitaries_smul phSim es 0 (fun _ => 0)
    simpa using this
  | succ m ih =>
    simp only [sum_range_succ]
    have := unitaries_lin phSim es 1 (c m) (fun i => ∑ j ∈ range m, c j * basis j i) (basis m)
    simp only [one_mul] at this
    rw [this, ih]

theorem unitaries_congr_lt {n : ℕ} {gates : List Gate} {es : List Elem} (hd : GatesDenote n gates es)
    (hv : ∀ e ∈ es, e.Valid n) (hu : ∀ e ∈ es, e.IsUnitary) {ψ χ : Vec} (h : ∀ i < 2 ^ n, ψ i = χ i) :
    ∀ i < 2 ^ n, unitaries phSim es ψ i = unitaries phSim es χ i := by
  obtain ⟨b1, s1, -, h1⟩ := npRunGates_state gates es hd hv hu ψ (vec n 0) (by simp) [] false (fun _ => 0)
  obtain ⟨b2, s2, -, h2⟩ := npRunGates_state gates es hd hv hu χ (vec n 0) (by simp) [] false (fun _ => 0)
  rw [vec_congr h, h2] at h1
  simp only [Except.ok.injEq, NpCtx.mk.injEq] at h1
  exact fun i hi => (vec_inj h1.1 i hi).symm

theorem unitaries_expand {n : ℕ} {gates : List Gate} {es : List Elem} (hd : GatesDenote n gates es)
    (hv : ∀ e ∈ es, e.Valid n) (hu : ∀ e ∈ es, e.IsUnitary) (ψ : Vec) :
    ∀ i < 2 ^ n, unitaries phSim es ψ i = ∑ j ∈ range (2 ^ n), unitaries phSim es (basis j) i * ψ j := by
  intro i hi
  have h1 : ∀ i < 2 ^ n, ψ i = ∑ j ∈ range (2 ^ n), ψ j * basis j i := by
    intro i hi
    simp only [basis, mul_ite, mul_one, mul_zero]
    rw [sum_ite_eq]; simp [hi]
  rw [unitaries_congr_lt hd hv hu h1 i hi, unitaries_sum]
  exact sum_congr rfl fun j _ => mul_comm _ _

/-! ## C27 -/

/-- The numpy backend turns the state `ψ` of `n` qubits into `q`, whatever else is in its context. -/
def NumpyMaps (n : ℕ) (gates : List Gate) (ψ : Vec) (q : List ℂ) : Prop :=
  ∀ (buf : Arr), buf.length = 2 ^ n → ∀ (cregs : List ℕ) (save : Bool) (rnd : ℕ → ℝ),
    ∃ ctx, runGates (npAction n) n recursionLimit gates ⟨amplitudes n ψ, buf, cregs, save, rnd⟩ = .ok ctx ∧
      ctx.qubits = q

theorem numpyMaps_of {n : ℕ} {gates : List Gate} {es : List Elem} (hd : GatesDenote n gates es)
    (hv : ∀ e ∈ es, e.Valid n) (hu : ∀ e ∈ es, e.IsUnitary) (ψ : Vec) :
    NumpyMaps n gates ψ (amplitudes n (unitaries phSim es ψ)) := by
  intro buf hb cregs save rnd
  obtain ⟨b', s', -, h⟩ := npRunGates_state gates es hd hv hu ψ buf hb cregs save rnd
  exact ⟨_, by rw [← vec_eq_amplitudes]; exact h, rfl⟩

/-- C27: for every circuit of unitary gates with valid targets, `circuit_to_unitary` returns a square matrix whose
column `j` is the state the circuit makes of basis state `j`, and which times any vector is what the circuit makes
of that vector. No random number is used. -/
theorem C27_circuit_to_unitary (n : ℕ) (gates : List Gate) (es : List Elem) (hd : GatesDenote n gates es)
    (hv : ∀ e ∈ es, e.Valid n) (hu : ∀ e ∈ es, e.IsUnitary) (rnd : ℕ → ℝ) :
    ∃ rows, circuitToUnitary ⟨n, gates⟩ none false rnd = .ok (rows, rnd) ∧ IsSquare (2 ^ n) rows ∧
      (∀ j < 2 ^ n, NumpyMaps n gates (basis j) (column rows j)) ∧
      ∀ ψ, NumpyMaps n gates ψ (matVec rows (amplitudes n ψ)) := by
  by_cases h0 : n = 0
  · subst h0
    have he : es = [] := by
      cases es with
      | nil => rfl
      | cons e es => have := hv e (by simp); cases e <;> simp [Elem.Valid] at this
    subst he
    have hm := numpyMaps_of hd hv hu
    refine ⟨[[1]], rfl, ⟨rfl, by simp⟩, ?_, ?_⟩
    · intro j hj
      have : j = 0 := by simpa using hj
      subst this
      simpa [amplitudes, unitaries, basis, column, List.range_succ] using hm (basis 0)
    · intro ψ
      simpa [amplitudes, unitaries, basis, matVec, List.range_succ] using hm ψ
  · have hloop := ctuLoop_ok hd hv hu rnd (List.range (1 <<< n)) (fun i hi => by
      rw [Nat.one_shiftLeft] at hi; exact List.mem_range.1 hi) false
    rw [Nat.one_shiftLeft] at hloop
    simp only [Bool.false_eq_true, if_false] at hloop
    have hrows : ctuTranspose ((List.range (2 ^ n)).map fun i => amplitudes n (unitaries phSim es (basis i))) =
        (List.range (2 ^ n)).map fun i => (List.range (2 ^ n)).map fun j => unitaries phSim es (basis j) i := by
      simp only [ctuTranspose, List.length_map, List.length_range, List.map_map]
      refine List.map_congr_left fun i hi => List.map_congr_left fun j _ => ?_
      simp only [Function.comp_apply, amplitudes, List.getD_eq_getElem?_getD, List.getElem?_map]
      rw [List.getElem?_range (List.mem_range.1 hi)]
      rfl
    refine ⟨_, by simp only [circuitToUnitary, h0, if_false, Nat.one_shiftLeft, hloop, hrows]; rfl, ?_, ?_, ?_⟩
    · refine ⟨by simp, ?_⟩
      intro r hr
      obtain ⟨i, -, rfl⟩ := List.mem_map.1 hr
      simp
    · intro j hj
      have : column ((List.range (2 ^ n)).map fun i => (List.range (2 ^ n)).map fun j => unitaries phSim es (basis j) i) j =
          amplitudes n (unitaries phSim es (basis j)) := by
        simp only [column, List.map_map, amplitudes]
        refine List.map_congr_left fun i _ => ?_
        simp [List.getD_eq_getElem?_getD, hj]
      rw [this]
      exact numpyMaps_of hd hv hu (basis j)
    · intro ψ
      have : matVec ((List.range (2 ^ n)).map fun i => (List.range (2 ^ n)).map fun j => unitaries phSim es (basis j) i)
          (amplitudes n ψ) = amplitudes n (unitaries phSim es ψ) := by
        simp only [matVec, List.map_map, amplitudes]
        refine List.map_congr_left fun i hi => ?_
        simp only [Function.comp_apply, zipWith_map_range]
        exact (unitaries_expand hd hv hu ψ i (List.mem_range.1 hi)).symm
      rw [this]
      exact numpyMaps_of hd hv hu ψ

/-- C27. `ignore_global` acts on the columns: each is what the circuit makes of its basis state, with the phase of the first
entry above `10^-7` removed if the option is set. -/
theorem C27_columns (n : ℕ) (gates : List Gate) (es : List Elem) (hd : GatesDenote n gates es)
    (hv : ∀ e ∈ es, e.Valid n) (hu : ∀ e ∈ es, e.IsUnitary) (ig : Bool) (rnd : ℕ → ℝ) :
    ∃ rows, circuitToUnitary ⟨n, gates⟩ none ig rnd = .ok (rows, rnd) ∧ IsSquare (2 ^ n) rows ∧
      ∀ j < 2 ^ n, ∃ q, NumpyMaps n gates (basis j) q ∧ column rows j = if ig then ignoreGlobalPhase q else q := by
  by_cases h0 : n = 0
  · subst h0
    obtain ⟨rows, h1, h2, h3, -⟩ := C27_circuit_to_unitary 0 gates es hd hv hu rnd
    simp only [circuitToUnitary, if_true] at h1
    cases h1
    refine ⟨[[1]], rfl, h2, fun j hj => ⟨column [[1]] j, h3 j hj, ?_⟩⟩
    have hj0 : j = 0 := by simpa using hj
    subst hj0
    have hf : ([1] : Arr).find? (fun q => decide (‖q‖ > 0.0000001)) = some 1 := by
      rw [List.find?_cons_of_pos]
      simp; norm_num
    have : ignoreGlobalPhase [1] = [1] := by
      simp [ignoreGlobalPhase, hf]
    change [1] = if ig then ignoreGlobalPhase [1] else [1]
    rw [this, ite_self]
  · have hloop := ctuLoop_ok hd hv hu rnd (List.range (2 ^ n)) (fun i hi => List.mem_range.1 hi) ig
    have hlen : ∀ v : Arr, (ignoreGlobalPhase v).length = v.length := by
      intro v; simp only [ignoreGlobalPhase]; split <;> simp
    refine ⟨_, by simp only [circuitToUnitary, h0, if_false, Nat.one_shiftLeft, hloop]; rfl, ?_, ?_⟩
    · refine ⟨by simp [ctuTranspose], ?_⟩
      intro r hr
      simp only [ctuTranspose, List.mem_map] at hr
      obtain ⟨i, -, rfl⟩ := hr
      simp
    · intro j hj
      refine ⟨_, numpyMaps_of hd hv hu (basis j), ?_⟩
      have hl : (if ig = true then ignoreGlobalPhase (amplitudes n (unitaries phSim es (basis j))) else
          amplitudes n (unitaries phSim es (basis j))).length = 2 ^ n := by
        split_ifs
        · rw [hlen]; simp [amplitudes]
        · simp [amplitudes]
      refine List.ext_getElem ?_ ?_
      · rw [hl]; simp [column, ctuTranspose]
      · intro i h1 h2
        have hi : i < 2 ^ n := by rw [hl] at h2; exact h2
        simp only [column, ctuTranspose, List.map_map, List.getElem_map, List.length_map, List.length_range,
          List.getElem_range, Function.comp_apply, List.getD_eq_getElem?_getD, List.getElem?_map, List.getElem?_range hj,
          Option.map_some, Option.getD_some]
        rw [List.getElem?_eq_getElem h2, Option.getD_some]

/-- C27. With `ignore_global` the result is in general no multiple of the circuit's matrix: for `z[0]` it is the identity. -/
theorem C27_ignore_global (rnd : ℕ → ℝ) :
    circuitToUnitary ⟨1, [.g1 .z (.one (.int 0))]⟩ none true rnd = .ok ([[1, 0], [0, 1]], rnd) ∧
    circuitToUnitary ⟨1, [.g1 .z (.one (.int 0))]⟩ none false rnd = .ok ([[1, 0], [0, -1]], rnd) := by
  have hd : GatesDenote 1 [.g1 .z (.one (.int 0))] [.one .z 0] :=
    ⟨[.one .z 0], [], ⟨[0], (by rw [← slicing_eq_iff]; rfl), rfl⟩, rfl, rfl⟩
  have hloop := ctuLoop_ok hd (by simp [Elem.Valid]) (by simp [Elem.IsUnitary]) rnd [0, 1] (by simp)
  have hr : List.range (1 <<< 1) = [0, 1] := rfl
  have a0 : amplitudes 1 (unitaries phSim [.one .z 0] (basis 0)) = [1, 0] := by
    simp [amplitudes, unitaries, Elem.unitary, matrix1, app, mZ, basis, List.range_succ]
  have a1 : amplitudes 1 (unitaries phSim [.one .z 0] (basis 1)) = [0, -1] := by
    simp [amplitudes, unitaries, Elem.unitary, matrix1, app, mZ, basis, List.range_succ]
  have p0 : ignoreGlobalPhase [1, 0] = [1, 0] := by
    have hf : ([1, 0] : Arr).find? (fun q => decide (‖q‖ > 0.0000001)) = some 1 := by
      rw [List.find?_cons_of_pos]
      simp; norm_num
    simp [ignoreGlobalPhase, hf]
  have p1 : ignoreGlobalPhase [0, -1] = [0, 1] := by
    have hf : ([0, -1] : Arr).find? (fun q => decide (‖q‖ > 0.0000001)) = some (-1) := by
      rw [List.find?_cons_of_neg (by simp; norm_num), List.find?_cons_of_pos]
      simp; norm_num
    simp [ignoreGlobalPhase, hf]
  simp only [circuitToUnitary, hr, hloop, List.map_cons, List.map_nil, a0, a1]
  simp [p0, p1, ctuTranspose, List.range_succ]

/-- The hypotheses hold for a Bell pair circuit. -/
example : GatesDenote 2 [.g1 .h (.one (.int 0)), .g2 .cx (.tup [.atom (.int 0), .atom (.int 1)])]
    [.one .h 0, .two .cx 0 1] ∧ (∀ e ∈ [Elem.one .h 0, Elem.two .cx 0 1], e.Valid 2 ∧ e.IsUnitary) := by
  refine ⟨⟨[.one .h 0], [.two .cx 0 1], ⟨[0], ?_, rfl⟩, ⟨[.two .cx 0 1], [], ⟨[(0, 1)], ?_, rfl⟩, rfl, rfl⟩, rfl⟩, ?_⟩
  · rw [← slicing_eq_iff]; rfl
  · rw [← pairsDenote_iff]; rfl
  · simp [Elem.Valid, Elem.IsUnitary]

end Blueqat
