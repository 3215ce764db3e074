import Verif.QiskitSampler
import Verif.Spec.QiskitSampler
import Verif.Props.Sampler
import Verif.Props.Ibmq
import Verif.Props.Qgate
import Mathlib.Tactic.IntervalCases

/-!
# Property C71: the Qiskit sampler
-/

set_option linter.unusedSimpArgs false
set_option linter.unusedVariables false

namespace Blueqat

open Spec

noncomputable section

/-! ## Reading keys -/

theorem reduceBits_of (b : String) (f : ℕ → Bool) (L : ℕ)
    (hb : b.toList.reverse = (List.range L).map (fun q => if f q then '1' else '0'))
    (meas : List ℕ) (h : ∀ q ∈ meas, q < L) :
    reduceBits b (meas.map (fun q : ℕ => (q : ℤ))) = .ok (meas.map (fun m => if f m then 1 else 0)) := by
  have h1 : b.toList.reverse.mapM intOfChar = .ok ((List.range L).map (fun q => if f q then 1 else 0)) := by
    rw [hb, List.mapM_map]
    refine mapM_ok _ _ _ (fun q _ => ?_)
    rw [Function.comp_apply]
    cases f q <;> simp [intOfChar] <;> decide
  simp only [reduceBits, h1, bind, Except.bind]
  rw [List.mapM_map]
  refine mapM_ok _ _ _ (fun m hm => ?_)
  have hm' := h m hm
  have : ¬ ((m : ℤ) < 0) := by omega
  simp only [Function.comp_apply, listAt, this, if_false, Int.toNat_natCast]
  rw [List.getElem?_map, List.getElem?_range hm']
  rfl

theorem registerNumber_lt (n : ℕ) (f : ℕ → Bool) : registerNumber n f < 2 ^ n := by
  induction n with
  | zero => simp [registerNumber]
  | succ n ih =>
    rw [registerNumber, Finset.sum_range_succ, ← registerNumber, pow_succ]
    split_ifs <;> omega

theorem registerNumber_testBit (n : ℕ) (f : ℕ → Bool) (q : ℕ) :
    (registerNumber n f).testBit q = (decide (q < n) && f q) := by
  induction n with
  | zero => simp [registerNumber]
  | succ n ih =>
    have hl := registerNumber_lt n f
    rw [registerNumber, Finset.sum_range_succ, ← registerNumber]
    by_cases hf : f n
    · have e := Nat.two_pow_add_eq_or_of_lt hl 1
      rw [mul_one] at e
      rw [if_pos hf, add_comm, e, Nat.testBit_or, ih, Nat.testBit_two_pow]
      rcases lt_trichotomy q n with h | h | h
      · simp [h, h.ne', Nat.lt_succ_of_lt h]
      · subst h; simp [hf]
      · have h1 : ¬ q < n := by omega
        have h2 : ¬ q < n + 1 := by omega
        simp [h1, h2, h.ne]
    · rw [if_neg hf, add_zero, ih]
      rcases lt_trichotomy q n with h | h | h
      · simp [h, Nat.lt_succ_of_lt h]
      · subst h; simp [hf]
      · have h1 : ¬ q < n := by omega
        have h2 : ¬ q < n + 1 := by omega
        simp [h1, h2]

theorem hexDigit_char (d : ℕ) (h : d < 16) : hexDigit (hexChar d) = some d := by
  interval_cases d <;> decide

theorem hexValue_append (xs : List Char) (c : Char) (d : ℕ) (hc : hexDigit c = some d) : ∀ a v, hexValue xs a = some v →
    hexValue (xs ++ [c]) a = some (16 * v + d) := by
  induction xs with
  | nil => intro a v h; simp only [hexValue, Option.some.injEq] at h; subst h; simp [hexValue, hc]
  | cons x xs ih =>
    intro a v h
    simp only [hexValue, List.cons_append] at h ⊢
    cases hx : hexDigit x with
    | none => simp [hx] at h
    | some e => simp only [hx] at h ⊢; exact ih _ _ h

theorem hexValue_digits (ds : List ℕ) (h : ∀ d ∈ ds, d < 16) :
    hexValue ((ds.map hexChar).reverse) 0 = some (Nat.ofDigits 16 ds) := by
  induction ds with
  | nil => rfl
  | cons d ds ih =>
    rw [List.map_cons, List.reverse_cons,
      hexValue_append _ _ d (hexDigit_char d (h d (by simp))) _ _ (ih (fun x hx => h x (by simp [hx]))), Nat.ofDigits_cons]
    congr 1; push_cast; ring

/-- Reading the hexadecimal text gives the number back. -/
theorem intBase16_hexText (n : ℕ) (f : ℕ → Bool) : intBase16 (hexText n f).toList = .ok (registerNumber n f) := by
  simp only [hexText, String.toList_ofList, intBase16, List.drop_succ_cons, List.drop_zero]
  by_cases hv : registerNumber n f = 0
  · simp only [hv, if_true]; rfl
  · simp only [hv, if_false]
    have h1 := hexValue_digits (Nat.digits 16 (registerNumber n f)) (fun d hd => Nat.digits_lt_base (by norm_num) hd)
    rw [Nat.ofDigits_digits] at h1
    cases hl : ((Nat.digits 16 (registerNumber n f)).map hexChar).reverse with
    | nil =>
      rw [hl] at h1
      simp only [hexValue, Option.some.injEq] at h1
      exact absurd h1.symm hv
    | cons c cs => rw [hl] at h1; simp only [h1]

theorem padded_bits (v : ℕ) : ∃ L, 101 ≤ L ∧ v < 2 ^ L ∧
    (List.replicate 100 '0' ++ (formatBin 0 v).toList).reverse =
      (List.range L).map (fun q => if v.testBit q then '1' else '0') := by
  have hlen : ∃ M, 1 ≤ M ∧ v < 2 ^ M ∧ (formatBin (100 + M) v).toList = List.replicate 100 '0' ++ (formatBin 0 v).toList := by
    by_cases h : v = 0
    · subst h; exact ⟨1, le_refl _, by norm_num, by simp [formatBin]⟩
    · refine ⟨(Nat.digits 2 v).length, ?_, Nat.lt_base_pow_length_digits (by norm_num), ?_⟩
      · rw [Nat.one_le_iff_ne_zero, ne_eq, List.length_eq_zero_iff, Nat.digits_eq_nil_iff_eq_zero]; exact h
      · simp [formatBin, h]
  obtain ⟨M, h1, h2, h3⟩ := hlen
  have h4 : v < 2 ^ (100 + M) := lt_of_lt_of_le h2 (Nat.pow_le_pow_right (by norm_num) (by omega))
  refine ⟨100 + M, by omega, h4, ?_⟩
  rw [← h3, formatBin_chars _ _ (by omega) h4, ← List.map_reverse]
  refine List.ext_getElem (by simp) (fun i a b => ?_)
  simp only [List.length_map, List.length_reverse, List.length_range] at a b
  simp only [List.getElem_map, List.getElem_reverse, List.getElem_range, List.length_range]
  rw [show 100 + M - 1 - (100 + M - 1 - i) = i by omega]

theorem qkReduceBits_eq {txt : ℕ → (ℕ → Bool) → String} {n : ℕ} {meas : List ℕ}
    (ht : txt = registerText ∨ txt = hexText ∧ ∀ q ∈ meas, q ≤ 100) (hm : ∀ q ∈ meas, q < n) (f : ℕ → Bool) :
    qkReduceBits (meas.map (fun q : ℕ => (q : ℤ))) (txt n f) = .ok (meas.map (fun m => if f m then 1 else 0)) := by
  rcases ht with rfl | ⟨rfl, h⟩
  · have hp : ['0', 'x'].isPrefixOf (registerText n f).toList = false := by
      rw [registerText, String.toList_ofList]
      cases h : (List.range n).reverse with
      | nil => rfl
      | cons a l =>
        cases l with
        | nil => simp [List.isPrefixOf]
        | cons b l =>
          simp only [List.map_cons, List.isPrefixOf]
          cases f a <;> cases f b <;> simp
    rw [qkReduceBits, hp]
    simp only [Bool.false_eq_true, if_false]
    exact reduceBits_of _ f n (by simp [registerText]) meas hm
  · have hp : ['0', 'x'].isPrefixOf (hexText n f).toList = true := by simp [hexText, List.isPrefixOf]
    rw [qkReduceBits, hp, intBase16_hexText]
    simp only [if_true]
    obtain ⟨L, h1, -, h3⟩ := padded_bits (registerNumber n f)
    rw [reduceBits_of _ (fun q => (registerNumber n f).testBit q) L (by rw [String.toList_ofList]; exact h3) meas
      (fun q hq => by have := h q hq; omega)]
    congr 1
    refine List.map_congr_left (fun m hm' => ?_)
    simp [registerNumber_testBit, hm m hm']

theorem txt_congr {txt : ℕ → (ℕ → Bool) → String} {n : ℕ} {meas : List ℕ}
    (ht : txt = registerText ∨ txt = hexText ∧ ∀ q ∈ meas, q ≤ 100) {f g : ℕ → Bool} (h : ∀ q < n, f q = g q) : txt n f = txt n g := by
  rcases ht with rfl | ⟨rfl, -⟩
  · rw [registerText, registerText]
    congr 1
    exact List.map_congr_left (fun q hq => by rw [h q (by simpa using hq)])
  · have : registerNumber n f = registerNumber n g :=
      Finset.sum_congr rfl (fun q hq => by rw [h q (Finset.mem_range.1 hq)])
    simp only [hexText, this]

/-! ## Classical bits nobody measures -/

theorem steps_creg (ph : ℝ → ℂ) (n : ℕ) (es : List Elem) (q : ℕ) (h : Elem.meas q ∉ es) :
    ∀ s, (steps ph n es s).creg q = s.creg q := by
  induction es with
  | nil => intro s; rfl
  | cons e es ih =>
    intro s
    have h1 : Elem.meas q ∉ es := fun hh => h (by simp [hh])
    show (steps ph n es (e.step ph n s)).creg q = _
    rw [ih h1]
    cases e with
    | meas t =>
      have : q ≠ t := by rintro rfl; exact h (by simp)
      simp only [Elem.step]; split_ifs <;> simp [Function.update_of_ne this]
    | reset t => simp only [Elem.step]; split_ifs <;> rfl
    | _ => rfl

theorem shotStates_creg (ph : ℝ → ℂ) (n : ℕ) (es : List Elem) (q : ℕ) (h : Elem.meas q ∉ es) : ∀ k rnd,
    ∀ s ∈ shotStates ph n es k rnd, s.creg q = false := by
  intro k
  induction k with
  | zero => intro rnd s hs; simp [shotStates] at hs
  | succ k ih =>
    intro rnd s hs
    simp only [shotStates, List.mem_cons] at hs
    rcases hs with rfl | hs
    · rw [steps_creg ph n es q h]; rfl
    · exact ih _ s hs

/-! ## The dictionary -/

theorem reduceCounterWith_eq (red : String → Except PyErr (List ℕ)) (K : String → List ℕ) :
    ∀ (c : Counter) (acc : PyDict (List ℕ) ℕ), (∀ p ∈ c, red p.1 = .ok (K p.1)) →
    reduceCounterWith red c acc = .ok (c.foldl (fun (r : PyDict (List ℕ) ℕ) p => r.set (K p.1) p.2) acc) := by
  intro c
  induction c with
  | nil => intro acc _; rfl
  | cons p c ih =>
    intro acc h
    obtain ⟨s, v⟩ := p
    simp only [reduceCounterWith, h (s, v) (by simp), List.foldl_cons]
    exact ih _ (fun p hp => h p (by simp [hp]))

/-- From counts of texts to fractions of keys, if the key determines the text among the shots. -/
theorem counts_to_fractions (shots : List MState) (meas : List ℕ) (txt : MState → String) (cnt : Counter)
    (hnd : (cnt.map Prod.fst).Nodup) (hpos : ∀ p ∈ cnt, 0 < p.2)
    (hcnt : ∀ key, countOf cnt key = shots.countP (fun s => decide (txt s = key)))
    (red : String → Except PyErr (List ℕ)) (hred : ∀ s ∈ shots, red (txt s) = .ok (shotKey meas s))
    (hinj : ∀ s ∈ shots, ∀ t ∈ shots, shotKey meas s = shotKey meas t → txt s = txt t) :
    ∃ d, reduceCounterWith red cnt [] = .ok d ∧ (d.map Prod.fst).Nodup ∧
      ∀ key, (d.get key).getD 0 = shots.countP (fun s => decide (shotKey meas s = key)) ∧
        (d.get key = none ↔ ∀ s ∈ shots, shotKey meas s ≠ key) := by
  have h4 : ∀ key, (PyDict.get cnt key).getD 0 = shots.countP (fun s => decide (txt s = key)) :=
    fun key => by rw [← hcnt, countOf_get cnt hnd]
  have hex : ∀ p ∈ cnt, ∃ s ∈ shots, p.1 = txt s := by
    intro p hp
    have := h4 p.1
    rw [PyDict.get_of_mem hnd (v := p.2) hp] at this
    have h0 := hpos p hp
    simp only [Option.getD_some] at this
    rw [this, List.countP_pos_iff] at h0
    obtain ⟨s, hs, he⟩ := h0
    exact ⟨s, hs, (by simpa using he : txt s = p.1).symm⟩
  let K : String → List ℕ := fun b => match red b with
    | .ok l => l
    | .error _ => []
  have hK : ∀ s ∈ shots, K (txt s) = shotKey meas s := fun s hs => by simp only [K, hred s hs]
  have hnd' : (cnt.map (fun p => K p.1)).Nodup := by
    have : cnt.map (fun p => K p.1) = (cnt.map Prod.fst).map K := by rw [List.map_map]; rfl
    rw [this, List.nodup_map_iff_inj_on hnd]
    intro a ha b hb hab
    obtain ⟨p, hp, rfl⟩ := List.mem_map.1 ha
    obtain ⟨q, hq, rfl⟩ := List.mem_map.1 hb
    obtain ⟨s, hs, he⟩ := hex p hp
    obtain ⟨t, ht, hf⟩ := hex q hq
    rw [he, hf, hK s hs, hK t ht] at hab
    rw [he, hf]
    exact hinj s hs t ht hab
  refine ⟨cnt.map (fun p => (K p.1, p.2)), ?_, by simpa [List.map_map, Function.comp_def] using hnd', fun key => ?_⟩
  · rw [reduceCounterWith_eq red K cnt [] (fun p hp => by
      obtain ⟨s, hs, he⟩ := hex p hp
      rw [he, hK s hs, hred s hs]), PyDict.foldl_set K cnt [] (by simpa using hnd')]
    rfl
  · by_cases hkey : ∃ s ∈ shots, shotKey meas s = key
    · obtain ⟨s, hs, rfl⟩ := hkey
      have hc : shots.countP (fun t => decide (txt t = txt s)) =
          shots.countP (fun t => decide (shotKey meas t = shotKey meas s)) := by
        refine List.countP_congr (fun t ht => ?_)
        simp only [decide_eq_true_eq]
        exact ⟨fun h => by rw [← hK t ht, ← hK s hs, h], hinj t ht s hs⟩
      have hp : 0 < shots.countP (fun t => decide (txt t = txt s)) := List.countP_pos_iff.2 ⟨s, hs, by simp⟩
      have hmem : PyDict.get cnt (txt s) = some (shots.countP (fun t => decide (txt t = txt s))) := by
        have := h4 (txt s)
        cases hg : PyDict.get cnt (txt s) with
        | none => rw [hg] at this; simp only [Option.getD_none] at this; omega
        | some v => rw [hg] at this; simp only [Option.getD_some] at this; rw [this]
      have hg : PyDict.get (cnt.map (fun p => (K p.1, p.2))) (shotKey meas s) =
          some (shots.countP (fun t => decide (shotKey meas t = shotKey meas s))) := by
        refine PyDict.get_of_mem (by simpa [PyDict.WF, List.map_map, Function.comp_def] using hnd') ?_
        exact List.mem_map.2 ⟨_, PyDict.get_mem hmem, by rw [hK s hs, hc]⟩
      refine ⟨by rw [hg]; rfl, ?_⟩
      rw [hg]
      simp only [reduceCtorEq, false_iff]
      exact fun h => h s hs rfl
    · have hg : PyDict.get (cnt.map (fun p => (K p.1, p.2))) key = none := by
        rw [PyDict.get_eq_none]
        intro hmem
        simp only [List.map_map, List.mem_map, Function.comp_apply] at hmem
        obtain ⟨p, hp, h⟩ := hmem
        obtain ⟨s, hs, he⟩ := hex p hp
        exact hkey ⟨s, hs, by rw [← hK s hs, ← he]; exact h⟩
      have h0 : shots.countP (fun s => decide (shotKey meas s = key)) = 0 := by
        rw [List.countP_eq_zero]
        intro s hs; simp only [decide_eq_true_eq]; exact fun h => hkey ⟨s, hs, h⟩
      rw [hg, h0]
      exact ⟨rfl, by simpa using fun s hs h => hkey ⟨s, hs, h⟩⟩

/-! ## The run -/

variable {Circ Bk Job Res Draw K : Type}

/-- Qiskit is installed, and for every program that has a meaning it reports the outcomes an ideal machine with the random
numbers `rnd` observes, the registers being written as `txt` says. -/
def ReportsCounts (txt : ℕ → (ℕ → Bool) → String) (qk : Qiskit Circ Bk Job Res Draw K) (bk : Option Bk) (kw : K)
    (read : String → Option ℝ) (rnd : ℕ → ℝ) : Prop :=
  qk.importExn = none ∧ ∀ text n m stmts (k : ℕ), parseProgram read text = some (n, m, stmts) →
    (∀ s, (qasmRun qelib n stmts s).isSome) →
    ∃ c b job res counts, qk.fromQasm text = .ok c ∧ (bk = some b ∨ bk = none ∧ qk.aer = .ok b) ∧
      qk.execute c b k kw = .ok job ∧ qk.result job = .ok res ∧ qk.counts res = .ok counts ∧
      ObservedCounts txt read qelib text k rnd counts

/-- The result object of a run, and its counts. -/
theorem ibmq_result (qk : Qiskit Circ Bk Job Res Draw K) (fmt : ℝ → String) (read : String → Option ℝ) (S : Set ℝ)
    (hS : AngleSet S) (hf : NumberFormat fmt read S) (n : ℕ) (gates : List Gate) (es : List Elem)
    (hd : GatesDenote n gates es) (hv : ∀ e ∈ es, e.Valid n) (hz : ∀ T, Gate.g3 .ccz T ∉ gates)
    (hcu2 : ∀ φ lam T, Gate.g2 (.cu2 φ lam) T ∉ gates) (ha : ∀ g ∈ gates, AnglesIn S g) (bk : Option Bk) (kw : K)
    (rnd : ℕ → ℝ) (txt : ℕ → (ℕ → Bool) → String) (hq : ReportsCounts txt qk bk kw read rnd) (k : ℕ) :
    ∃ res cnt, ibmqRun qk fmt n gates bk (some (k : ℤ)) (some "qiskit_result") kw = .ok (.result res) ∧
      qk.counts res = .ok cnt ∧ (cnt.map Prod.fst).Nodup ∧ (∀ p ∈ cnt, 0 < p.2) ∧
      ∀ key, countOf cnt key = (shotStates phSim n es k rnd).countP (fun s => decide (txt n s.creg = key)) := by
  obtain ⟨lines, h1, -, h2, h5, h4⟩ := emits_means fmt (notCcz_of hz) hd hv
  have hm := h2 hcu2
  have htext : qaRun fmt n gates true = .ok (programText fmt n lines) := by
    simp only [qaRun, h4, pyJoin_eq]; rfl
  have hparse := parseProgram_text hf h1 (h5 S hS ha)
  obtain ⟨himp, hrun⟩ := hq
  obtain ⟨c, b, job, res, counts, q1, q2, q3, q4, q5, q6⟩ := hrun (programText fmt n lines) n n _ k hparse
    (fun s => by obtain ⟨s', e, -⟩ := hm s; rw [e]; rfl)
  obtain ⟨n', m', stmts', states, r1, r2, r3, r3', r4⟩ := q6
  rw [hparse] at r1
  simp only [Option.some.injEq, Prod.mk.injEq] at r1
  obtain ⟨rfl, rfl, rfl⟩ := r1
  obtain ⟨states', p1, p2⟩ := programShots_states hm k rnd
  rw [r2] at p1
  cases p1
  refine ⟨res, counts, ?_, q5, r3, r3', fun key => ?_⟩
  · rcases q2 with rfl | ⟨rfl, h⟩
    · simp [ibmqRun, qasmParsableRun, htext, ibmqRunner, ibmqReturns, himp, ibmqCircuit, q1, ibmqExecute, q3, ibmqCounts, q4]
    · simp [ibmqRun, qasmParsableRun, htext, ibmqRunner, ibmqReturns, himp, ibmqCircuit, q1, ibmqExecute, h, q3, ibmqCounts,
        q4]
  · rw [r4]
    have e : ∀ l : List MState, l.countP (fun s => decide (txt n s.creg = key)) =
        (l.map MState.creg).countP (fun c => decide (txt n c = key)) := by
      intro l; rw [List.countP_map]; rfl
    rw [e, e, p2]

/-- The circuit with the measurement the sampler appends. -/
def withMeasure (c : OpsVal) (meas : List ℕ) : OpsVal :=
  ⟨c.n, c.ops ++ [.measure (.tup ((meas.map (fun q : ℕ => (q : ℤ))).map (fun m => .atom (.int m))))]⟩

/-- The sampler up to the dictionary of counts. -/
theorem qiskit_sampler_counts (qk : Qiskit Circ Bk Job Res Draw K) (fmt : ℝ → String) (read : String → Option ℝ) (S : Set ℝ)
    (hS : AngleSet S) (hf : NumberFormat fmt read S) (c : OpsVal) (es : List Elem)
    (hd : GatesDenote c.n c.ops es) (hv : ∀ e ∈ es, e.Valid c.n) (hz : ∀ T, Gate.g3 .ccz T ∉ c.ops)
    (hcu2 : ∀ φ lam T, Gate.g2 (.cu2 φ lam) T ∉ c.ops) (ha : ∀ g ∈ c.ops, AnglesIn S g) (bk : Option Bk) (kw : K)
    (rnd : ℕ → ℝ) (txt : ℕ → (ℕ → Bool) → String) (hq : ReportsCounts txt qk bk kw read rnd) (shots : Option ℕ)
    (meas : List ℕ) (hne : meas ≠ []) (hm : ∀ q ∈ meas, q < c.n) (r : ℕ → ℝ) :
    ∃ res cnt, qk.counts res = .ok cnt ∧ qiskitSampler qk fmt bk shots kw c (meas.map (fun q : ℕ => (q : ℤ))) r =
        (withMeasure c meas, (qkFractions qk (shots.getD 1024) (meas.map (fun q : ℕ => (q : ℤ))) (.ok (.result res))).map
          (fun d => (d, r))) ∧
      (cnt.map Prod.fst).Nodup ∧ (∀ p ∈ cnt, 0 < p.2) ∧
      ∀ key, countOf cnt key = (shotStates phSim c.n (es ++ meas.map .meas) (shots.getD 1024) rnd).countP
        (fun s => decide (txt c.n s.creg = key)) := by
  have hd' : GatesDenote c.n (withMeasure c meas).ops (es ++ meas.map .meas) :=
    gatesDenote_append hd ⟨_, [], measure_denotes c.n meas, rfl, by simp⟩
  have hv' : ∀ e ∈ es ++ meas.map .meas, e.Valid c.n := by
    intro e he
    rcases List.mem_append.1 he with h | h
    · exact hv e h
    · obtain ⟨q, hq, rfl⟩ := List.mem_map.1 h; exact hm q hq
  obtain ⟨res, cnt, h1, h2, h3, h4, h5⟩ := ibmq_result qk fmt read S hS hf c.n (withMeasure c meas).ops _ hd' hv'
    (by intro T h
        simp only [withMeasure, List.mem_append, List.mem_singleton, Gate.measure, reduceCtorEq, or_false] at h
        exact hz T h)
    (by intro φ lam T h
        simp only [withMeasure, List.mem_append, List.mem_singleton, Gate.measure, reduceCtorEq, or_false] at h
        exact hcu2 φ lam T h)
    (by intro g hg
        simp only [withMeasure, List.mem_append, List.mem_singleton] at hg
        rcases hg with hg | rfl
        · exact ha g hg
        · simp [AnglesIn, Gate.measure])
    bk kw rnd txt hq (shots.getD 1024)
  refine ⟨res, cnt, h2, ?_, h3, h4, h5⟩
  have hne' : meas.map (fun q : ℕ => (q : ℤ)) ≠ [] := by simpa using hne
  rw [qiskitSampler, if_neg hne', append_measure c meas hm]
  simp only
  rw [show c.ops ++ [.measure (.tup ((meas.map (fun q : ℕ => (q : ℤ))).map (fun m => .atom (.int m))))] =
    (withMeasure c meas).ops from rfl, h1]
  rfl

/-- **C71, partial.** On a Qiskit that reports what it observes, in binary or hexadecimal, the sampler returns for every
outcome of the qubits `meas`, in the order of `meas`, the fraction of the shots with that outcome, and no other key. The
circuit keeps the measurement. Without `shots`, 1024 shots are made. Missing: no qubits to measure
(`C71_constant_refuted`), circuits that measure other qubits (`C71_lost_refuted`), hexadecimal keys for qubits after 100
(`C71_hex_refuted`). -/
theorem C71_fractions_partial (qk : Qiskit Circ Bk Job Res Draw K) (fmt : ℝ → String) (read : String → Option ℝ) (S : Set ℝ)
    (hS : AngleSet S) (hf : NumberFormat fmt read S) (c : OpsVal) (es : List Elem)
    (hd : GatesDenote c.n c.ops es) (hv : ∀ e ∈ es, e.Valid c.n) (hz : ∀ T, Gate.g3 .ccz T ∉ c.ops)
    (hcu2 : ∀ φ lam T, Gate.g2 (.cu2 φ lam) T ∉ c.ops) (ha : ∀ g ∈ c.ops, AnglesIn S g) (bk : Option Bk) (kw : K)
    (rnd : ℕ → ℝ) (shots : Option ℕ) (meas : List ℕ) (hne : meas ≠ []) (hm : ∀ q ∈ meas, q < c.n)
    (hother : ∀ q, Elem.meas q ∈ es → q ∈ meas) (txt : ℕ → (ℕ → Bool) → String)
    (ht : txt = registerText ∨ txt = hexText ∧ ∀ q ∈ meas, q ≤ 100) (hq : ReportsCounts txt qk bk kw read rnd) :
    ∃ sampler, getQiskitSampler qk fmt bk shots kw = .ok sampler ∧ ∀ r, ∃ d,
      sampler c (meas.map (fun q : ℕ => (q : ℤ))) r = (withMeasure c meas, .ok (d, r)) ∧ (d.map Prod.fst).Nodup ∧
      ∀ key, (d.get key).getD 0 =
          shotFraction (shotStates phSim c.n (es ++ meas.map .meas) (shots.getD 1024) rnd) meas key ∧
        (d.get key = none ↔
          shotFraction (shotStates phSim c.n (es ++ meas.map .meas) (shots.getD 1024) rnd) meas key = 0) := by
  refine ⟨qiskitSampler qk fmt bk shots kw, by simp only [getQiskitSampler, hq.1], fun r => ?_⟩
  obtain ⟨res, cnt, h2, h1, h3, h4, h5⟩ := qiskit_sampler_counts qk fmt read S hS hf c es hd hv hz hcu2 ha bk kw rnd txt hq
    shots meas hne hm r
  set k := shots.getD 1024 with hk
  set states := shotStates phSim c.n (es ++ meas.map .meas) k rnd with hst
  have hlen : states.length = k := shotStates_length _ _ _ _ _
  obtain ⟨d, d1, d2, d3⟩ := counts_to_fractions states meas (fun s => txt c.n s.creg) cnt h3 h4 h5
    (qkReduceBits (meas.map (fun q : ℕ => (q : ℤ)))) (fun s _ => qkReduceBits_eq ht hm s.creg) (by
      intro s hs t ht' h
      refine txt_congr ht (fun q hq => ?_)
      by_cases hqm : q ∈ meas
      · have := List.map_inj_left.1 h q hqm
        cases h1 : s.creg q <;> cases h2 : t.creg q <;> simp_all
      · have hnm : Elem.meas q ∉ es ++ meas.map .meas := by
          intro h
          rcases List.mem_append.1 h with h | h
          · exact hqm (hother q h)
          · obtain ⟨q', h1, h2⟩ := List.mem_map.1 h
            cases h2; exact hqm h1
        rw [shotStates_creg _ _ _ q hnm k rnd s hs, shotStates_creg _ _ _ q hnm k rnd t ht'])
  have h0 : ¬ (k = 0 ∧ d ≠ []) := by
    rintro ⟨h0, hne⟩
    obtain ⟨⟨key, v⟩, hp⟩ := List.exists_mem_of_ne_nil d hne
    have hg := PyDict.get_of_mem d2 hp
    have : ¬ (d.get key = none) := by rw [hg]; simp
    rw [(d3 key).2] at this
    refine this (fun s hs => ?_)
    have := List.length_pos_of_mem hs
    omega
  have hget : ∀ key, PyDict.get (d.map (fun p : List ℕ × ℕ => (p.1, (p.2 : ℝ) / k))) key = (d.get key).map (fun v : ℕ => (v : ℝ) / k) := by
    intro key
    clear d1 d2 d3 h0
    induction d with
    | nil => rfl
    | cons p d ih =>
      by_cases h : p.1 = key
      · simp [PyDict.get, h]
      · simp only [PyDict.get, List.map_cons, h, if_false] at ih ⊢
        simpa [h] using ih
  refine ⟨d.map (fun p : List ℕ × ℕ => (p.1, (p.2 : ℝ) / k)), ?_, by simpa [List.map_map, Function.comp_def] using d2, fun key => ?_⟩
  · rw [h1]
    simp only [qkFractions, h2, d1, if_neg h0]
    rfl
  · have hfr : ((d.get key).map (fun v : ℕ => (v : ℝ) / k)).getD 0 = shotFraction states meas key := by
      rw [shotFraction, hlen, ← (d3 key).1]
      cases d.get key <;> simp
    rw [hget]
    refine ⟨hfr, ?_⟩
    rw [Option.map_eq_none_iff, (d3 key).2, shotFraction, div_eq_zero_iff]
    simp only [Nat.cast_eq_zero, List.countP_eq_zero, decide_eq_true_eq, List.length_eq_zero_iff]
    constructor
    · exact fun h => Or.inl h
    · rintro (h | h)
      · exact h
      · rw [h]; simp

/-- **C71, import.** Without Qiskit no sampler is made; a failed import is reported as it is. -/
theorem C71_import (qk : Qiskit Circ Bk Job Res Draw K) (fmt : ℝ → String) (bk : Option Bk) (shots : Option ℕ) (kw : K)
    (e : PyErr) (h : qk.importExn = some e) : getQiskitSampler qk fmt bk shots kw = .error e := by
  simp only [getQiskitSampler, h]

/-! ## Where it fails -/

/-- **C71 is false without qubits to measure.** A constant term has no qubits; its only outcome, the empty one, has
probability 1, but the sampler returns no outcome. The energy of a constant Hamiltonian then is 0, whatever the constant. -/
theorem C71_constant_refuted (qk : Qiskit Circ Bk Job Res Draw K) (fmt : ℝ → String) (bk : Option Bk) (shots : Option ℕ)
    (kw : K) (c : OpsVal) (x : ℂ) (r : ℕ → ℝ) :
    (∀ shots : List MState, shots ≠ [] → shotFraction shots [] [] = 1) ∧
    qiskitSampler qk fmt bk shots kw c [] r = (c, .ok ([], r)) ∧
    getEnergy ⟨[⟨[], x⟩]⟩ c (qiskitSampler qk fmt bk shots kw) r = .ok (0, r) := by
  refine ⟨fun shots h => ?_, by simp [qiskitSampler], ?_⟩
  · have : (shots.length : ℝ) ≠ 0 := by simpa using h
    have e : shots.countP (fun s => decide (shotKey [] s = [])) = shots.length := by
      rw [List.countP_eq_length]; simp [shotKey]
    rw [shotFraction, e, div_self this]
  · simp [getEnergy, energyLoop, energyBasis, qiskitSampler, energySum, bind, Except.bind]

theorem prob_zero_state (n q : ℕ) : prob n q false (fun j => if j = 0 then 1 else 0) = 1 := by
  rw [prob, Finset.sum_eq_single 0]
  · simp
  · intro b _ hb; simp [hb]
  · intro h; simp at h

/-- **C71 is false for hexadecimal keys and qubits after 100.** The text is filled with 100 zeros only: the circuit without
gates on more than 101 qubits, of which the last is measured in one shot, raises IndexError on every such Qiskit. -/
theorem C71_hex_refuted (qk : Qiskit Circ Bk Job Res Draw K) (fmt : ℝ → String) (read : String → Option ℝ) (S : Set ℝ)
    (hS : AngleSet S) (hf : NumberFormat fmt read S) (bk : Option Bk) (kw : K) (rnd : ℕ → ℝ) (hr : InUnit rnd)
    (hq : ReportsCounts hexText qk bk kw read rnd) (q : ℕ) (hq100 : 100 < q) (r : ℕ → ℝ) :
    (qiskitSampler qk fmt bk (some 1) kw ⟨q + 1, []⟩ [(q : ℤ)] r).2 = .error .indexError := by
  obtain ⟨res, cnt, h2, h1, h3, h4, h5⟩ := qiskit_sampler_counts qk fmt read S hS hf ⟨q + 1, []⟩ [] rfl (by simp) (by simp)
    (by simp) (by simp) bk kw rnd hexText hq (some 1) [q] (by simp) (by simp) r
  simp only [List.map_cons, List.map_nil, Option.getD_some, List.nil_append] at h1 h5
  obtain ⟨s, hs, hs0⟩ : ∃ s, shotStates phSim (q + 1) [Elem.meas q] 1 rnd = [s] ∧ s.creg = fun _ => false := by
    refine ⟨_, rfl, ?_⟩
    have := prob_zero_state (q + 1) q
    simp only [steps, List.foldl_cons, List.foldl_nil, Elem.step, initState, this, (hr 0).2, if_true]
    funext j; simp [Function.update_apply]
  have hnum : registerNumber (q + 1) (fun _ => false) = 0 := by simp [registerNumber]
  have hx : hexText (q + 1) s.creg = "0x0" := by
    rw [hs0, hexText]; simp only [hnum, if_true]
  have hkeys : ∀ p ∈ cnt, p.1 = "0x0" := by
    intro p hp
    have := h5 p.1
    rw [countOf_get cnt h3, PyDict.get_of_mem h3 (v := p.2) hp, hs] at this
    have h0 := h4 p hp
    by_contra hne
    have hne' : ¬ "0x0" = p.1 := fun h => hne h.symm
    simp [List.countP_cons, hx, hne'] at this
    try omega
  have hred : qkReduceBits [(q : ℤ)] "0x0" = .error .indexError := by
    have e1 : intBase16 "0x0".toList = .ok 0 := by decide
    have e2 : ['0', 'x'].isPrefixOf "0x0".toList = true := by decide
    rw [qkReduceBits, e1, e2]
    simp only [if_true]
    have h1 : (String.ofList (List.replicate 100 '0' ++ (formatBin 0 0).toList)).toList.reverse.mapM intOfChar =
        .ok (List.replicate 101 0) := by
      rw [String.toList_ofList]; decide
    have hn : ¬ ((q : ℤ) < 0) := by omega
    have hnone : (List.replicate 101 (0 : ℕ))[q]? = none := by
      rw [List.getElem?_eq_none_iff, List.length_replicate]; omega
    simp only [reduceBits, h1, bind, Except.bind, List.mapM_cons, List.mapM_nil, listAt, hn, if_false, Int.toNat_natCast, hnone]
  rw [h1]
  cases cnt with
  | nil =>
    have := h5 "0x0"
    rw [hs] at this
    simp [countOf, List.countP_cons, hx] at this
  | cons p cnt =>
    have := hkeys p (by simp)
    obtain ⟨t, v⟩ := p
    simp only at this
    subst this
    simp only [qkFractions, h2, reduceCounterWith, hred]
    rfl

/-- Two qubits, a Hadamard gate on the first, both measured. -/
theorem hm_steps (r : ℕ → ℝ) (h1 : r 1 < 1) :
    (steps phSim 2 [.one .h 0, .meas 0, .meas 1] (initState r)).creg 0 = decide (¬ r 0 < 1 / 2) ∧
    (steps phSim 2 [.one .h 0, .meas 0, .meas 1] (initState r)).creg 1 = false ∧
    (steps phSim 2 [.one .h 0, .meas 0, .meas 1] (initState r)).rnd = fun k => r (k + 2) := by
  have p1 : prob 2 0 false (app mH 0 (fun j => if j = 0 then 1 else 0)) = 1 / 2 := by
    show ∑ i ∈ (Finset.range 4).filter (fun i => i.testBit 0 = false), _ = _
    rw [filter_bit0_false]; simp [app, mH, flipBit]
  have p2 : prob 2 0 true (app mH 0 (fun j => if j = 0 then 1 else 0)) = 1 / 2 := by
    show ∑ i ∈ (Finset.range 4).filter (fun i => i.testBit 0 = true), _ = _
    rw [filter_bit0_true]; simp [app, mH, flipBit]
  have v0 : ‖app mH 0 (fun j => if j = 0 then 1 else 0) 0‖ ^ 2 = 1 / 2 := by simp [app, mH, flipBit]
  have v1 : ‖app mH 0 (fun j => if j = 0 then 1 else 0) 1‖ ^ 2 = 1 / 2 := by simp [app, mH, flipBit]
  have hq : ‖((√(1 / 2 : ℝ) : ℝ) : ℂ)‖ ^ 2 = 1 / 2 := by
    rw [Complex.norm_real, Real.norm_eq_abs, sq_abs, Real.sq_sqrt (by norm_num)]
  have p3 : ∀ b, prob 2 1 false (collapse 2 0 b (app mH 0 (fun j => if j = 0 then 1 else 0))) = 1 := by
    intro b
    show ∑ i ∈ (Finset.range 4).filter (fun i => i.testBit 1 = false), _ = _
    rw [filter_bit1_false, Finset.sum_pair (by norm_num)]
    cases b
    · simp only [collapse, p1, norm_div, div_pow]
      rw [if_pos (by decide), if_neg (by decide), norm_div, div_pow, v0, hq]; norm_num
    · simp only [collapse, p2, norm_div, div_pow]
      rw [if_neg (by decide), if_pos (by decide), norm_div, div_pow, v1, hq]; norm_num
  have e : app (matrix1 .h) 0 (fun j => if j = 0 then 1 else 0) = app mH 0 (fun j => if j = 0 then 1 else 0) := rfl
  by_cases h0 : r 0 < 1 / 2
  · simp only [steps, List.foldl_cons, List.foldl_nil, Elem.step, Elem.unitary, initState, e, p1, p3, h0, if_true, h1,
      zero_add]
    simp
  · simp only [steps, List.foldl_cons, List.foldl_nil, Elem.step, Elem.unitary, initState, e, p1, p3, h0, if_false, h1,
      zero_add, if_true]
    simp

/-- **C71 is false if the circuit measures other qubits.** `Circuit(2).h[0].m[0]`, sampled on qubit 1 with two shots whose
outcomes for qubit 0 differ: qubit 1 is 0 in both shots, but the counts overwrite one another and the sampler reports 1/2. -/
theorem C71_lost_refuted : ∃ (c : OpsVal) (es : List Elem) (rnd : ℕ → ℝ), GatesDenote c.n c.ops es ∧
    (∀ e ∈ es, e.Valid c.n) ∧ InUnit rnd ∧
    shotFraction (shotStates phSim c.n (es ++ [1].map .meas) 2 rnd) [1] [0] = 1 ∧
    ∀ {Circ Bk Job Res Draw K : Type} (qk : Qiskit Circ Bk Job Res Draw K) (fmt : ℝ → String) (read : String → Option ℝ)
      (S : Set ℝ), AngleSet S → NumberFormat fmt read S → ∀ (bk : Option Bk) (kw : K),
      ReportsCounts registerText qk bk kw read rnd → ∀ r,
      (qiskitSampler qk fmt bk (some 2) kw c [1] r).2 = .ok ([([0], 1 / 2)], r) := by
  have hd : GatesDenote 2 [on1 .h 0, .measure (.ofInt 0)] [.one .h 0, .meas 0] :=
    gatesDenote_cons (gateDenotes_on1 2 .h 0) (gatesDenote_cons (e := [.meas 0]) (es := [])
      ⟨[0], by simp [Targets.ofInt, TargetsDenote, AtomDenotes, pyIndex], rfl⟩ rfl)
  set rnd : ℕ → ℝ := fun k => if k = 0 then 0 else 3 / 4 with hrnd
  have hr : InUnit rnd := by intro k; simp only [hrnd]; split_ifs <;> norm_num
  obtain ⟨s, t, hst, hs0, hs1, ht0, ht1⟩ : ∃ s t,
      shotStates phSim 2 ([.one .h 0, .meas 0] ++ [1].map .meas) 2 rnd = [s, t] ∧
      s.creg 0 = false ∧ s.creg 1 = false ∧ t.creg 0 = true ∧ t.creg 1 = false := by
    obtain ⟨a1, a2, a3⟩ := hm_steps rnd (hr 1).2
    obtain ⟨b1, b2, -⟩ := hm_steps (fun k => rnd (k + 2)) (hr 3).2
    refine ⟨steps phSim 2 [.one .h 0, .meas 0, .meas 1] (initState rnd),
      steps phSim 2 [.one .h 0, .meas 0, .meas 1] (initState (fun k => rnd (k + 2))), ?_, ?_, a2, ?_, b2⟩
    · simp only [shotStates, List.map_cons, List.map_nil, List.cons_append, List.nil_append, a3]
    · rw [a1]; simp [hrnd]
    · rw [b1]; simp [hrnd]; norm_num
  refine ⟨⟨2, [on1 .h 0, .measure (.ofInt 0)]⟩, [.one .h 0, .meas 0], rnd, hd, by simp [Elem.Valid], hr, ?_, ?_⟩
  · simp only [hst]
    simp [shotFraction, shotKey, hs1, ht1, List.countP_cons]
  intro Circ Bk Job Res Draw K qk fmt read S hS hf bk kw hq r
  obtain ⟨res, cnt, h2, h1, h3, h4, h5⟩ := qiskit_sampler_counts qk fmt read S hS hf
    ⟨2, [on1 .h 0, .measure (.ofInt 0)]⟩ [.one .h 0, .meas 0] hd (by simp [Elem.Valid])
    (by simp [on1, Gate.measure]) (by simp [on1, Gate.measure])
    (by simp [on1, Gate.measure, AnglesIn, angles1]) bk kw rnd registerText hq (some 2) [1] (by simp) (by simp) r
  simp only [List.map_cons, List.map_nil, Option.getD_some, Nat.cast_one] at h1 h5
  have hst' : shotStates phSim 2 ([.one .h 0, .meas 0] ++ [Elem.meas 1]) 2 rnd = [s, t] := hst
  have bs : registerText 2 s.creg = "00" := by simp [registerText, List.range_succ, hs0, hs1]
  have bt : registerText 2 t.creg = "01" := by simp [registerText, List.range_succ, ht0, ht1]
  have h4' : ∀ p ∈ cnt, p.2 = 1 ∧ (p.1 = "00" ∨ p.1 = "01") := by
    intro p hp
    have := h5 p.1
    rw [countOf_get cnt h3, PyDict.get_of_mem h3 (v := p.2) hp, hst'] at this
    have h0 := h4 p hp
    simp only [Option.getD_some, List.countP_cons, List.countP_nil, bs, bt] at this
    by_cases ha : "00" = p.1
    · rw [← ha] at this ⊢; simp at this; exact ⟨this, Or.inl rfl⟩
    · by_cases hb : "01" = p.1
      · rw [← hb] at this ⊢; simp at this; exact ⟨this, Or.inr rfl⟩
      · simp [ha, hb] at this; omega
  have hne : cnt ≠ [] := by
    rintro rfl
    have := h5 "00"
    rw [hst'] at this
    simp [countOf, bs, List.countP_cons] at this
  have hred : ∀ p ∈ cnt, qkReduceBits [1] p.1 = .ok [0] := by
    intro p hp
    rcases (h4' p hp).2 with h | h <;> rw [h] <;> decide
  have hfold : ∀ (l : Counter), l ≠ [] → (∀ p ∈ l, p.2 = 1) → ∀ acc : PyDict (List ℕ) ℕ, (acc = [] ∨ acc = [([0], 1)]) →
      l.foldl (fun (r : PyDict (List ℕ) ℕ) p => r.set [0] p.2) acc = [([0], 1)] := by
    intro l hl
    induction l with
    | nil => exact absurd rfl hl
    | cons p l ih =>
      intro h acc hacc
      have e : PyDict.set acc [0] p.2 = [([0], 1)] := by
        rw [h p (by simp)]; rcases hacc with rfl | rfl <;> simp [PyDict.set]
      rw [List.foldl_cons, e]
      by_cases hl' : l = []
      · rw [hl']; rfl
      · exact ih hl' (fun p hp => h p (by simp [hp])) _ (Or.inr rfl)
  rw [h1]
  simp only [qkFractions, h2, reduceCounterWith_eq _ (fun _ => [0]) cnt [] hred,
    hfold cnt hne (fun p hp => (h4' p hp).1) [] (Or.inl rfl)]
  simp [Except.map]

/-! ## Non-vacuity -/

open Classical in
/-- The ideal Qiskit whose counts are written as `txt` says. -/
def reportingQiskit (txt : ℕ → (ℕ → Bool) → String) (read : String → Option ℝ) (rnd : ℕ → ℝ) :
    Qiskit String Unit (String × ℤ) (String × ℤ) Unit Unit where
  importExn := none
  fromQasm t := .ok t
  draw _ _ := .ok ()
  aer := .ok ()
  execute t _ k _ := .ok (t, k)
  result j := .ok j
  counts r :=
    match parseProgram read r.1 with
    | none => .error .valueError
    | some (n, m, stmts) =>
      match programShots qelib n stmts r.2.toNat rnd with
      | none => .error .valueError
      | some states =>
        let keys := states.map fun s => txt m s.creg
        .ok (keys.dedup.map fun t => (t, keys.count t))

theorem reportingQiskit_reports (txt : ℕ → (ℕ → Bool) → String) (read : String → Option ℝ) (rnd : ℕ → ℝ) :
    ReportsCounts txt (reportingQiskit txt read rnd) none () read rnd := by
  refine ⟨rfl, fun text n m stmts k hp hs => ?_⟩
  obtain ⟨states, h⟩ := programShots_some hs k rnd
  refine ⟨text, (), (text, k), (text, k), (states.map fun s => txt m s.creg).dedup.map fun t =>
      (t, (states.map fun s => txt m s.creg).count t), rfl, .inr ⟨rfl, rfl⟩, rfl, rfl, ?_, n, m, stmts, states, hp, h, ?_, ?_, ?_⟩
  · simp only [reportingQiskit, hp, Int.toNat_natCast, h]
  · simp only [List.map_map]
    have : (Prod.fst ∘ fun t : String => (t, (states.map fun s => txt m s.creg).count t)) = id := rfl
    rw [this, List.map_id]
    exact List.nodup_dedup _
  · intro p hp
    obtain ⟨t, ht, rfl⟩ := List.mem_map.1 hp
    exact List.count_pos_iff.2 (List.mem_dedup.1 ht)
  · intro key
    rw [countOf_dedup, List.count_eq_countP, List.countP_map]
    congr 1

/-- The hypotheses can be met: `Circuit(3).h[0].crz(π)[0, 1].ccx[0, 1, 2].m[0:2]` sampled on the qubits `(2, 1, 0)` with
hexadecimal counts. -/
example (rnd r : ℕ → ℝ) : ∃ sampler d,
    getQiskitSampler (reportingQiskit hexText dyadicRead rnd) dyadicFmt none (some 100) () = .ok sampler ∧
    sampler ⟨3, qasmDemo⟩ [2, 1, 0] r = (withMeasure ⟨3, qasmDemo⟩ [2, 1, 0], .ok (d, r)) := by
  obtain ⟨sampler, h1, h2⟩ := C71_fractions_partial (reportingQiskit hexText dyadicRead rnd) dyadicFmt dyadicRead dyadicPi
    dyadicPi_angles dyadic_format ⟨3, qasmDemo⟩ _ qasmDemo_denotes qasmDemo_valid qasmDemo_noccz (by simp [qasmDemo])
    qasmDemo_angles none () rnd (some 100) [2, 1, 0] (by simp) (by simp) (by simp) hexText (Or.inr ⟨rfl, by simp⟩)
    (reportingQiskit_reports hexText dyadicRead rnd)
  obtain ⟨d, h3, -⟩ := h2 r
  exact ⟨sampler, d, h1, h3⟩

end

end Blueqat
