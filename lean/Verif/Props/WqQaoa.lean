import Verif.WqQaoa
import Verif.Props.WqOpt
import Verif.Props.Diagonal

/-!
# C99: `Opt.qaoa` minimizes the energy of the QUBO
-/

set_option linter.unusedSimpArgs false
set_option linter.unusedVariables false

namespace Blueqat

noncomputable section

open Spec Finset

variable {V M C B A R : Type} (kit : Kit C B A R) (isAttr : String → Bool)

/-- The energy of a QUBO on `n` variables at the assignment whose bits are those of `k`. -/
def energyAt (n : ℕ) (q : QuboVal) (k : ℕ) : ℝ := quboEnergy n (quboEntry q) (bitVals k.testBit)

theorem pauli_square (n : ℕ) (q : QuboVal) (hq : IsSquareVal n q) :
    ∃ v, q.pauli = .ok v ∧ valOp v = costOp (energyAt n q) := by
  cases q with
  | rows r =>
    obtain ⟨rfl, h⟩ := hq
    obtain ⟨v, h1, h2⟩ := C85_wq r h
    exact ⟨v, h1, h2⟩
  | array m =>
    obtain ⟨h1, h2⟩ := hq
    have hl : m.toRows.length = n := by rw [toRows_length, h1]
    obtain ⟨v, e1, e2⟩ := C85_wq m.toRows (by
      intro row hrow
      simp only [NpMat.toRows, List.mem_map, List.mem_range] at hrow
      obtain ⟨i, hi, rfl⟩ := hrow
      rw [hl, List.length_map, List.length_range, h2])
    refine ⟨v, e1, ?_⟩
    rw [e2]
    congr 1
    funext k
    rw [energyAt, quboEnergy, quboEnergy, hl]
    refine Finset.sum_congr rfl fun i hi => Finset.sum_congr rfl fun j hj => ?_
    rw [toRows_entry m (by rw [h1]; simpa using hi) (by rw [h2]; simpa using hj)]
    rfl

theorem quboBit_expr (i : ℕ) : ∃ e, quboBit i = .expr e := ⟨_, rfl⟩

theorem pvAdd_expr (a : PVal) (e : PExpr) : ∃ e', pvAdd a (.expr e) = .expr e' := by cases a <;> exact ⟨_, rfl⟩

theorem foldlM_keeps {α σ : Type} (P : σ → Prop) (f : σ → α → Except PyErr σ) (l : List α)
    (h : ∀ s a s', P s → f s a = .ok s' → P s') (s s' : σ) (hs : P s) (hr : l.foldlM f s = .ok s') : P s' := by
  induction l generalizing s with
  | nil => cases hr; exact hs
  | cons a l ih =>
    rw [List.foldlM_cons] at hr
    cases hf : f s a with
    | error e => rw [hf] at hr; cases hr
    | ok t => rw [hf] at hr; exact ih t (h s a t hs hf) hr

theorem wqPauli_inner (r : Rows) (i : ℕ) (l : List ℕ) (e : PExpr) (v : PVal)
    (h : l.foldlM (fun h j => do
        let a ← r.entry i j
        let b ← r.entry j i
        pure (pvAdd h (pvMul (pvMul (quboBit i) (quboBit j)) (.num (.real (a + b)))))) (PVal.expr e) = .ok v) :
    ∃ e, v = .expr e := by
  refine foldlM_keeps (fun v => ∃ e, v = PVal.expr e) _ _ ?_ _ _ ⟨e, rfl⟩ h
  rintro s j s' ⟨e, rfl⟩ hs
  cases ha : r.entry i j with
  | error x => rw [ha] at hs; cases hs
  | ok a =>
    cases hb : r.entry j i with
    | error x => rw [ha, hb] at hs; cases hs
    | ok b => rw [ha, hb] at hs; cases hs; exact ⟨_, rfl⟩

/-- One iteration of the outer loop of `pauli`. -/
theorem wqPauli_outer (r : Rows) (i : ℕ) (s v : PVal)
    (h : (do
      let d ← r.entry i i
      let h := pvAdd s (pvMul (quboBit i) (.num (.real d)))
      (List.range' (i + 1) (r.length - (i + 1))).foldlM (fun h j => do
        let a ← r.entry i j
        let b ← r.entry j i
        pure (pvAdd h (pvMul (pvMul (quboBit i) (quboBit j)) (.num (.real (a + b)))))) h) = .ok v) : ∃ e, v = .expr e := by
  cases hd : r.entry i i with
  | error x => rw [hd] at h; cases h
  | ok d =>
    rw [hd] at h
    obtain ⟨e, he⟩ := pvAdd_expr s ((quboBit i).toExpr.scale d)
    have : pvAdd s (pvMul (quboBit i) (.num (.real d))) = .expr e := by rw [← he]; rfl
    simp only [bind, Except.bind] at h
    rw [this] at h
    exact wqPauli_inner r i _ e v h

theorem wqPauli_expr (r : Rows) (hr : r ≠ []) (v : PVal) (h : wqPauli r = .ok v) : ∃ e, v = .expr e := by
  rw [wqPauli] at h
  split_ifs at h with hq
  obtain ⟨n, hn⟩ : ∃ n, r.length = n + 1 := Nat.exists_eq_succ_of_ne_zero (by simpa using hr)
  rw [show List.range r.length = List.range n ++ [n] by rw [hn, List.range_succ], List.foldlM_append] at h
  cases hf : (List.range n).foldlM (fun h i => do
      let d ← r.entry i i
      let h := pvAdd h (pvMul (quboBit i) (.num (.real d)))
      (List.range' (i + 1) (r.length - (i + 1))).foldlM (fun h j => do
        let a ← r.entry i j
        let b ← r.entry j i
        pure (pvAdd h (pvMul (pvMul (quboBit i) (quboBit j)) (.num (.real (a + b)))))) h) (PVal.num (.real 0)) with
  | error e => rw [hf] at h; cases h
  | ok s =>
    rw [hf] at h
    simp only [bind, Except.bind, List.foldlM_cons, List.foldlM_nil] at h
    refine wqPauli_outer r n s v ?_
    simp only [bind, Except.bind]
    split at h <;> rename_i heq
    · cases h
    · cases h; exact heq

theorem pauli_expr (n : ℕ) (hn : n ≠ 0) (q : QuboVal) (hq : IsSquareVal n q) (v : PVal) (h : q.pauli = .ok v) :
    ∃ e, v = .expr e := by
  cases q with
  | rows r => exact wqPauli_expr r (by rintro rfl; exact hn hq.1.symm) v h
  | array m =>
    refine wqPauli_expr m.toRows ?_ v h
    intro h0
    have := toRows_length m
    rw [h0, hq.1] at this
    exact hn this.symm

/-- **C99.** `opt.qaoa(shots, step, verbose)` for a QUBO on `n ≥ 1` variables, a list or an array, whatever circuits were made
before. Let `m` be the least number such that the energy of an assignment depends on its first `m` variables only. Then either
making `Circuit(m).h[:]` or running it raises, or the default minimizer minimizes the mean of the energy over the
outcomes of measuring the QAOA state of `m` qubits and nothing else; the result has the parameters it returned, nothing is
printed, and `most_common(l)` gives the `l` most likely outcomes, assignments of the first `m` variables. -/
theorem C99_qaoa (jv : ℕ → ℂ) (ji : ℕ → ℕ) (b : B) (reg : Registry V M C) (h : List (Cmd V M C A)) (n : ℕ) (hn : n ≠ 0)
    (q : QuboVal) (hq : IsSquareVal n q) (shots step : ℕ) (verbose : Bool) (dflt : ℕ → Minimizer)
    (hm : HasDim (2 * step) (dflt (2 * step))) (a : A) (rnd : ℕ → ℝ) :
    let w := (World.start b reg).exec kit isAttr h
    ∃ m, (∀ l, m ≤ l ↔ ∀ j k : ℕ, (∀ i < l, j.testBit i = k.testBit i) → energyAt n q j = energyAt n q k) ∧
      ((∃ err, (optQaoa kit isAttr jv ji q shots step verbose dflt a rnd w).2 = .error err ∧
        ((QaoaAnsatz.chooseInit kit isAttr m none none w).2 = .error err ∨
          ∃ i n', (QaoaAnsatz.chooseInit kit isAttr m none none w).2 = .ok (i, n') ∧
            ((QaoaAnsatz.chooseInit kit isAttr m none none w).1.step kit isAttr (.makeCache i none a)).2 = .error err)) ∨
      ∃ out, (optQaoa kit isAttr jv ji q shots step verbose dflt a rnd w).2 = .ok (out, rnd) ∧
        out.params = answer (fun p => meanCost m (energyAt n q) (qaoaState m step (energyAt n q) p)) (dflt (2 * step)) ∧
        out.printed = [] ∧ (∀ p : List ℝ, p.length = 2 * step → normSqN m (qaoaState m step (energyAt n q) p) = 1) ∧
        ∀ (l : ℕ) rnd', ∃ r' ks, out.result.mostCommon l rnd' = (r', .ok (ks.map (fun k =>
            (bitsAt (List.range m) k, ‖qaoaState m step (energyAt n q) out.params k‖ ^ 2)), rnd')) ∧
          MostLikely m (qaoaState m step (energyAt n q) out.params) l ks) := by
  intro w
  obtain ⟨ham, h1, hd⟩ := pauli_square n q hq
  have hk : (∃ t, ham = .term t) ∨ ∃ e, ham = .expr e := .inr (pauli_expr n hn q hq ham h1)
  refine ⟨ham.toExpr.simplify.nQubits, C85_qubits ham _ hd, ?_⟩
  cases hx : QaoaAnsatz.new kit isAttr ham step none none a w with
  | mk w' x =>
    cases x with
    | error err =>
      refine .inl ⟨err, by simp only [optQaoa, h1, hx], ?_⟩
      exact C85_accepted kit isAttr w ham _ hd hk step a err (by rw [hx])
    | ok an =>
      obtain ⟨out, e1, e2, e3, e4⟩ := C85_run kit isAttr jv ji b reg h ham _ step a an dflt none false rnd hd
        (by show (QaoaAnsatz.new kit isAttr ham step none none a w).2 = _; rw [hx]) hm (.inl rfl)
      refine .inr ⟨out, ?_, e2, by rw [e3]; rfl, qaoaState_norm kit isAttr b reg h ham _ hd step a an
        (by show (QaoaAnsatz.new kit isAttr ham step none none a w).2 = _; rw [hx]), e4⟩
      rw [show QaoaAnsatz.new kit isAttr ham step none none a ((World.start b reg).exec kit isAttr h) = (w', .ok an) from hx] at e1
      simp only [optQaoa, h1, hx, VqeObj.run, VqeObj.new, Option.getD_none]
      exact e1

/-- The number of measured variables in `C99_qaoa` is at most `n`. -/
theorem energyAt_depends (n : ℕ) (q : QuboVal) (j k : ℕ) (h : ∀ i < n, j.testBit i = k.testBit i) :
    energyAt n q j = energyAt n q k := by
  simp only [energyAt, quboEnergy, bitVals]
  refine Finset.sum_congr rfl fun i hi => Finset.sum_congr rfl fun j' hj => ?_
  rw [h i (by simpa using hi), h j' (by simpa using hj)]

/-- C99. After `add` calls the energy that `qaoa` minimizes is the sum of the given energies with their factors. -/
theorem C99_add (n : ℕ) (qs : List (QuboVal × ℝ)) (hne : qs ≠ []) (hq : ∀ p ∈ qs, IsSquareVal n p.1) :
    ∃ v, addAll (.rows []) qs = .ok v ∧ IsSquareVal n v ∧
      ∀ k, energyAt n v k = (qs.map fun p => p.2 * energyAt n p.1 k).sum := by
  obtain ⟨s, h1, h2, h3, -, h5⟩ := C68_add n qs hne hq
  exact ⟨_, h1, ⟨h2, h3⟩, fun k => h5 _⟩

/-- C99. `qaoa` needs a QUBO: without one (a new object, or one with couplings `J` only) it raises AttributeError, as does an
empty array. -/
theorem C99_empty (jv : ℕ → ℂ) (ji : ℕ → ℕ) (q : QuboVal) (hq : IsSquareVal 0 q) (shots step : ℕ) (verbose : Bool)
    (dflt : ℕ → Minimizer) (a : A) (rnd : ℕ → ℝ) (w : World V M C B) :
    optQaoa kit isAttr jv ji q shots step verbose dflt a rnd w = (w, .error .attributeError) := by
  have h : q.pauli = .ok (.num (.real 0)) := by
    cases q with
    | rows r =>
      obtain ⟨h, -⟩ := hq
      rw [List.length_eq_zero_iff] at h
      subst h
      rfl
    | array m =>
      have : m.toRows = [] := by rw [← List.length_eq_zero_iff, toRows_length, hq.1]
      rw [QuboVal.pauli, this]
      rfl
  rw [optQaoa, h]
  rfl

/-- C99. A list of rows that is not square raises AssertionError. -/
theorem C99_not_square (jv : ℕ → ℂ) (ji : ℕ → ℕ) (r : Rows) (hr : ∃ row ∈ r, row.length ≠ r.length) (shots step : ℕ)
    (verbose : Bool) (dflt : ℕ → Minimizer) (a : A) (rnd : ℕ → ℝ) (w : World V M C B) :
    optQaoa kit isAttr jv ji (.rows r) shots step verbose dflt a rnd w = (w, .error .assertionError) := by
  rw [optQaoa, QuboVal.pauli, C42_not_square r hr]

theorem quboEnergy_split (n : ℕ) (Q : ℕ → ℕ → ℝ) (b : ℕ → ℝ) :
    quboEnergy n Q b = upperEnergy n Q b + ∑ i ∈ range n, ∑ j ∈ range n, if j < i then Q i j * b i * b j else 0 := by
  simp only [quboEnergy, upperEnergy]
  rw [← Finset.sum_add_distrib]
  refine Finset.sum_congr rfl fun i _ => ?_
  rw [← Finset.sum_add_distrib]
  refine Finset.sum_congr rfl fun j _ => ?_
  by_cases h : i ≤ j
  · rw [if_pos h, if_neg (by omega), add_zero]
  · rw [if_neg h, if_pos (by omega), zero_add]

theorem lower_pair (n : ℕ) (Q : ℕ → ℕ → ℝ) (i0 j0 : ℕ) (hi : i0 < n) (hj : j0 < i0) :
    (∑ i ∈ range n, ∑ j ∈ range n, if j < i then Q i j * bitVals (fun k => decide (k = i0 ∨ k = j0)) i *
      bitVals (fun k => decide (k = i0 ∨ k = j0)) j else 0) = Q i0 j0 := by
  rw [Finset.sum_eq_single i0, Finset.sum_eq_single j0]
  · simp [bitVals, hj]
  · intro j _ hne
    by_cases hji : j = i0
    · subst hji; simp
    · simp [bitVals, hne, hji]
  · intro h; exact absurd (Finset.mem_range.2 (by omega)) h
  · intro i _ hne
    refine Finset.sum_eq_zero fun j _ => ?_
    by_cases hij : i = j0
    · subst hij
      split_ifs with hlt
      · have h1 : j ≠ i0 := by omega
        have h2 : j ≠ i := by omega
        simp [bitVals, h1, h2]
      · rfl
    · simp [bitVals, hne, hij]
  · intro h; exact absurd (Finset.mem_range.2 hi) h

/-- **C99, exactly.** `sa` anneals the energy of the upper triangle, for every square QUBO on two or more variables: the returned
bits and energies are those of annealing shots on it. This is the energy that `qaoa` minimizes if and only if all entries below the
diagonal are 0. -/
theorem C99_exact (o : Opt) (n : ℕ) (hn : 2 ≤ n) (q : QuboVal) (hq : IsSquareVal n q) :
    (∀ (shots : ℕ) (fast : Bool) (r : Rand) (fuel : ℕ) (res : SAResult × ELog), o.sa q shots fast r fuel = .ok (some res) →
      RunOk (Shot (fun c => upperEnergy n (quboEntry q) (bitVals c)) n (if fast then 100 else o.ite)
        (if fast then 0.75 else o.R) 0.02 o.Ts) shots res) ∧
    ((∀ c : ℕ → Bool, upperEnergy n (quboEntry q) (bitVals c) = quboEnergy n (quboEntry q) (bitVals c)) ↔
      ∀ i < n, ∀ j < i, quboEntry q i j = 0) := by
  constructor
  · intro shots fast r fuel res h
    cases q with
    | rows rs =>
      obtain ⟨rfl, hr⟩ := hq
      exact C49_run { o with qubo := rs } (by rintro h0; replace h0 : rs = [] := h0; subst h0; simp at hn)
        (fun row hrow => by show rs.length ≤ _; rw [hr row hrow]) shots fast 0.02 r fuel res h
    | array s =>
      obtain ⟨h2, h3⟩ := hq
      have hcond : (QuboVal.array s).neEmpty = true := by simp [QuboVal.neEmpty, h3]; omega
      simp only [Opt.sa, Opt.runVal, hcond, if_true] at h
      have hlen : s.toRows.length = n := by rw [toRows_length, h2]
      have := C49_run { o with qubo := s.toRows } (by intro h; replace h : s.toRows = [] := h; rw [h] at hlen; simp at hlen; omega)
        (by
          intro row hrow
          simp only [NpMat.toRows, List.mem_map, List.mem_range] at hrow
          obtain ⟨i, hi, rfl⟩ := hrow
          simp [hlen, h3]) shots fast 0.02 r fuel res h
      simp only [hlen] at this
      have e : (fun c => upperEnergy n (Spec.entryOf s.toRows) (bitVals c)) =
          fun c => upperEnergy n (quboEntry (.array s)) (bitVals c) := by
        funext c
        exact upperEnergy_congr (fun i hi j hj => toRows_entry s (by omega) (by omega)) _
      rw [← e]
      exact this
  · constructor
    · intro h i hi j hj
      have h1 := h (fun k => decide (k = i ∨ k = j))
      rw [quboEnergy_split, lower_pair n _ i j hi hj] at h1
      linarith
    · intro h c
      rw [quboEnergy_split, Finset.sum_eq_zero, add_zero]
      intro i hi
      refine Finset.sum_eq_zero fun j _ => ?_
      split_ifs with hlt
      · rw [h i (Finset.mem_range.1 hi) j hlt]; ring
      · rfl

/-- C99. For an upper triangular QUBO on two or more variables `sa` and `qaoa` minimize the same energy: the returned bits and
energies of `sa` are those of annealing shots on it. -/
theorem C99_same_partial (o : Opt) (n : ℕ) (hn : 2 ≤ n) (q : QuboVal) (hq : IsSquareVal n q)
    (hu : ∀ i < n, ∀ j < i, quboEntry q i j = 0) (shots : ℕ) (fast : Bool) (r : Rand) (fuel : ℕ) (res : SAResult × ELog)
    (h : o.sa q shots fast r fuel = .ok (some res)) :
    RunOk (Shot (fun c => quboEnergy n (quboEntry q) (bitVals c)) n (if fast then 100 else o.ite)
      (if fast then 0.75 else o.R) 0.02 o.Ts) shots res := by
  have h1 := (C99_exact o n hn q hq).1 shots fast r fuel res h
  rwa [funext ((C99_exact o n hn q hq).2.2 hu)] at h1

/-- **C99 is false if an entry is below the diagonal.** With the QUBO `[[-1, 0], [3, -1]]` the energies of `qaoa` and of `sa`
differ: `sa` anneals `-b0 - b1`, which is least for the bits 1, 1, where the energy that `qaoa` minimizes is greatest. -/
theorem C99_same_refuted : ∃ q, IsSquareVal 2 q ∧
    (∀ k, energyAt 2 q k = -bitVals k.testBit 0 - bitVals k.testBit 1 + 3 * bitVals k.testBit 0 * bitVals k.testBit 1) ∧
    ∀ (o : Opt) (shots : ℕ) (fast : Bool) (r : Rand) (fuel : ℕ) (res : SAResult × ELog),
      o.sa q shots fast r fuel = .ok (some res) →
      RunOk (Shot (fun c => -bitVals c 0 - bitVals c 1) 2 (if fast then 100 else o.ite)
        (if fast then 0.75 else o.R) 0.02 o.Ts) shots res := by
  refine ⟨.rows [[-1, 0], [3, -1]], by simp [IsSquareVal], fun k => ?_, fun o shots fast r fuel res h => ?_⟩
  · have hb : ∀ i, bitVals k.testBit i * bitVals k.testBit i = bitVals k.testBit i := by
      intro i
      simp only [bitVals]
      split_ifs <;> norm_num
    simp only [energyAt, quboEnergy, quboEntry, Spec.entryOf, Finset.sum_range_succ, Finset.sum_range_zero]
    simp
    linear_combination -hb 0 - hb 1
  · have := C49_run { o with qubo := [[-1, 0], [3, -1]] } (by simp) (by simp) shots fast 0.02 r fuel res h
    have e : (fun c => upperEnergy 2 (Spec.entryOf [[-1, 0], [3, -1]]) (bitVals c)) =
        fun c => -bitVals c 0 - bitVals c 1 := by
      funext c
      have hb : ∀ i, bitVals c i * bitVals c i = bitVals c i := by
        intro i
        simp only [bitVals]
        split_ifs <;> norm_num
      simp only [upperEnergy, Spec.entryOf, Finset.sum_range_succ, Finset.sum_range_zero]
      simp
      linear_combination -hb 0 - hb 1
    rw [← e]
    exact this

/-! ## Examples -/

/-- In a world with a working backend `qaoa` gives a result for every QUBO on one or more variables. -/
theorem qaoa_demo (jv : ℕ → ℂ) (ji : ℕ → ℕ) (n : ℕ) (hn : n ≠ 0) (q : QuboVal) (hq : IsSquareVal n q) (shots step : ℕ)
    (verbose : Bool) (dflt : ℕ → Minimizer) (hm : HasDim (2 * step) (dflt (2 * step))) (rnd : ℕ → ℝ) :
    ∃ m out, (∀ l, m ≤ l ↔ ∀ j k : ℕ, (∀ i < l, j.testBit i = k.testBit i) → energyAt n q j = energyAt n q k) ∧
      (optQaoa demoKit (fun _ => false) jv ji q shots step verbose dflt () rnd demoStart).2 = .ok (out, rnd) ∧
      out.params = answer (fun p => meanCost m (energyAt n q) (qaoaState m step (energyAt n q) p)) (dflt (2 * step)) ∧
      (∀ p : List ℝ, p.length = 2 * step → normSqN m (qaoaState m step (energyAt n q) p) = 1) ∧
      ∀ (l : ℕ) rnd', ∃ r' ks, out.result.mostCommon l rnd' = (r', .ok (ks.map (fun k =>
            (bitsAt (List.range m) k, ‖qaoaState m step (energyAt n q) out.params k‖ ^ 2)), rnd')) ∧
          MostLikely m (qaoaState m step (energyAt n q) out.params) l ks := by
  obtain ⟨m, h1, h2⟩ := C99_qaoa demoKit (fun _ => false) jv ji 0 demoReg [] n hn q hq shots step verbose dflt hm () rnd
  rcases h2 with ⟨err, e1, -⟩ | ⟨out, e1, e2, -, e3, e4⟩
  · exfalso
    obtain ⟨ham, g1, hd⟩ := pauli_square n q hq
    obtain ⟨an, ha⟩ := diag_demo ham _ hd (.inr (pauli_expr n hn q hq ham g1)) step
    obtain ⟨out, k1, -⟩ := C85_run demoKit (fun _ => false) jv ji 0 demoReg [] ham _ step () an dflt none false rnd hd ha hm
      (.inl rfl)
    change (optQaoa demoKit (fun _ => false) jv ji q shots step verbose dflt () rnd demoStart).2 = _ at e1
    change vqeRun jv ji (an.toAnsatz demoKit _ (QaoaAnsatz.new demoKit (fun _ => false) ham step none none () demoStart).1)
      dflt none false rnd = _ at k1
    cases hx : QaoaAnsatz.new demoKit (fun _ => false) ham step none none () demoStart with
    | mk w' x =>
      rw [hx] at ha k1
      replace ha : x = .ok an := ha
      subst ha
      simp only [optQaoa, g1, hx, VqeObj.run, VqeObj.new, Option.getD_none] at e1
      rw [k1] at e1
      cases e1
  · exact ⟨m, out, h1, e1, e2, e3, e4⟩

/-- **C99: not every variable is returned.** For the QUBO `[[1, 0], [0, 0]]` on two variables the outcomes of `most_common` have
one bit. -/
theorem C99_bits_refuted (jv : ℕ → ℂ) (ji : ℕ → ℕ) (rnd : ℕ → ℝ) : ∃ out,
    (optQaoa demoKit (fun _ => false) jv ji (.rows [[1, 0], [0, 0]]) 1 2 false (fun n => .done (List.replicate n 0)) () rnd
      demoStart).2 = .ok (out, rnd) ∧
    ∃ r' x p, out.result.mostCommon 1 rnd = (r', .ok ([(x, p)], rnd)) ∧ x.length = 1 := by
  obtain ⟨m, out, h1, h2, h3, hN, h4⟩ := qaoa_demo jv ji 2 (by simp) (.rows [[1, 0], [0, 0]]) (by simp [IsSquareVal]) 1 2 false
    (fun n => .done (List.replicate n 0)) (by simp [HasDim]) rnd
  have hE : ∀ k, energyAt 2 (.rows [[1, 0], [0, 0]]) k = bitVals k.testBit 0 := by
    intro k
    simp only [energyAt, quboEnergy, quboEntry, Spec.entryOf, Finset.sum_range_succ, Finset.sum_range_zero, bitVals]
    simp
  have hm : m = 1 := by
    apply le_antisymm
    · rw [h1]
      intro j k h
      rw [hE, hE, bitVals, bitVals, h 0 (by simp)]
    · by_contra hc
      have := (h1 0).1 (by omega) 0 1 (by simp)
      rw [hE, hE] at this
      simp [bitVals] at this
  subst hm
  obtain ⟨r', ks, e1, e2⟩ := h4 1 rnd
  obtain ⟨k, rfl, -⟩ := mostLikely_one e2 (hN _ (by rw [h3]; simp [answer]))
  exact ⟨out, h2, r', _, _, e1, by simp [bitsAt]⟩

/-- `C99_same_partial` is about runs that exist: the QUBO `[[-1, 3], [0, -1]]`. -/
example (r : Rand) : ∃ fuel res, ({} : Opt).sa (.rows [[-1, 3], [0, -1]]) 1 false r fuel = .ok (some res) ∧
    RunOk (Shot (fun c => quboEnergy 2 (Spec.entryOf [[-1, 3], [0, -1]]) (bitVals c)) 2 1000 0.95 0.02 5) 1 res := by
  obtain ⟨N, hN⟩ := C49_terminates { qubo := [[-1, 3], [0, -1]] } (by simp) (by simp) (by norm_num) (by norm_num) 1 false
    0.02 (by norm_num)
  obtain ⟨res, hres⟩ := hN N le_rfl r
  refine ⟨N, res, hres, ?_⟩
  have := C99_same_partial {} 2 le_rfl (.rows [[-1, 3], [0, -1]]) (by simp [IsSquareVal]) (by
    intro i hi j hj
    obtain ⟨rfl, rfl⟩ : i = 1 ∧ j = 0 := by omega
    simp [quboEntry, Spec.entryOf]) 1 false r N res hres
  exact this

example (jv : ℕ → ℂ) (ji : ℕ → ℕ) (rnd : ℕ → ℝ) :
    (optQaoa demoKit (fun _ => false) jv ji (.rows []) 1 2 false (fun n => .done (List.replicate n 0)) () rnd demoStart).2 =
      .error .attributeError := by
  rw [C99_empty _ _ _ _ (.rows []) ⟨rfl, by simp⟩]

end

end Blueqat
