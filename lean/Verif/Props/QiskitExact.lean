import Verif.Props.QiskitSampler
import Verif.Props.SamplerExact

/-!
# C71 for circuits that measure other qubits
-/

set_option linter.unusedSimpArgs false

namespace Blueqat

open Spec

noncomputable section

theorem txt_inj {txt : ℕ → (ℕ → Bool) → String} (ht : txt = registerText ∨ txt = hexText) {n : ℕ} {f g : ℕ → Bool}
    (h : txt n f = txt n g) : ∀ q < n, f q = g q := by
  intro q hq
  rcases ht with rfl | rfl
  · rw [registerText, registerText, String.ofList_inj] at h
    have := List.map_inj_left.1 h q (by simpa using hq)
    cases hf : f q <;> cases hg : g q <;> simp_all
  · have h1 := intBase16_hexText n f
    rw [h, intBase16_hexText n g] at h1
    have h2 := registerNumber_testBit n f q
    rw [← Except.ok.inj h1, registerNumber_testBit n g q] at h2
    simpa [hq] using h2.symm

/-- **C71, exactly**, for any circuit. The keys are the outcomes of the qubits `meas` that occurred. The value of a key is the fraction
of the shots that have the same whole register as *one* of the shots with that key. -/
theorem C71_exact {Circ Bk Job Res Draw K : Type} (qk : Qiskit Circ Bk Job Res Draw K) (fmt : ℝ → String) (read : String → Option ℝ)
    (S : Set ℝ) (hS : AngleSet S) (hf : NumberFormat fmt read S) (c : OpsVal) (es : List Elem)
    (hd : GatesDenote c.n c.ops es) (hv : ∀ e ∈ es, e.Valid c.n) (hz : ∀ T, Gate.g3 .ccz T ∉ c.ops)
    (hcu2 : ∀ φ lam T, Gate.g2 (.cu2 φ lam) T ∉ c.ops) (ha : ∀ g ∈ c.ops, AnglesIn S g) (bk : Option Bk) (kw : K)
    (rnd : ℕ → ℝ) (shots : Option ℕ) (meas : List ℕ) (hne : meas ≠ []) (hm : ∀ q ∈ meas, q < c.n)
    (txt : ℕ → (ℕ → Bool) → String) (ht : txt = registerText ∨ txt = hexText ∧ ∀ q ∈ meas, q ≤ 100)
    (hq : ReportsCounts txt qk bk kw read rnd) (states : List MState)
    (hst : states = shotStates phSim c.n (es ++ meas.map .meas) (shots.getD 1024) rnd) :
    ∃ sampler, getQiskitSampler qk fmt bk shots kw = .ok sampler ∧ ∀ r, ∃ d,
      sampler c (meas.map (fun q : ℕ => (q : ℤ))) r = (withMeasure c meas, .ok (d, r)) ∧ (d.map Prod.fst).Nodup ∧
      ∀ key, (d.get key = none ↔ ∀ s ∈ states, shotKey meas s ≠ key) ∧
        ∀ v, d.get key = some v → ∃ s ∈ states, shotKey meas s = key ∧
          v = (states.countP (fun t => decide (∀ q < c.n, t.creg q = s.creg q)) : ℝ) / states.length := by
  refine ⟨qiskitSampler qk fmt bk shots kw, by simp only [getQiskitSampler, hq.1], fun r => ?_⟩
  obtain ⟨res, cnt, h2, h1, h3, h4, h5⟩ := qiskit_sampler_counts qk fmt read S hS hf c es hd hv hz hcu2 ha bk kw rnd txt hq
    shots meas hne hm r
  rw [← hst] at h5
  have hlen : states.length = shots.getD 1024 := by rw [hst]; exact shotStates_length _ _ _ _ _
  rw [← hlen] at h1
  have hget : ∀ key, (PyDict.get cnt key).getD 0 = states.countP (fun s => decide (txt c.n s.creg = key)) :=
    fun key => by rw [← h5, countOf_get cnt h3]
  have hex : ∀ p ∈ cnt, ∃ s ∈ states, p.1 = txt c.n s.creg ∧ p.2 = states.countP (fun t => decide (txt c.n t.creg = p.1)) := by
    intro p hp
    have := hget p.1
    rw [PyDict.get_of_mem h3 (v := p.2) hp] at this
    have h0 := h4 p hp
    simp only [Option.getD_some] at this
    rw [this, List.countP_pos_iff] at h0
    obtain ⟨s, hs, he⟩ := h0
    exact ⟨s, hs, (by simpa using he : txt c.n s.creg = p.1).symm, this⟩
  have hin : ∀ s ∈ states, ∃ p ∈ cnt, p.1 = txt c.n s.creg := by
    intro s hs
    by_contra hno
    push Not at hno
    have h0 : PyDict.get cnt (txt c.n s.creg) = none := by
      by_contra hne'
      obtain ⟨v, hv'⟩ := Option.ne_none_iff_exists'.1 hne'
      exact hno _ (PyDict.get_mem hv') rfl
    have := hget (txt c.n s.creg)
    rw [h0] at this
    have hpos : 0 < states.countP (fun t => decide (txt c.n t.creg = txt c.n s.creg)) :=
      List.countP_pos_iff.2 ⟨s, hs, by simp⟩
    rw [← this] at hpos
    simp at hpos
  let red := qkReduceBits (meas.map (fun q : ℕ => (q : ℤ)))
  let K : String → List ℕ := fun b => match red b with
    | .ok l => l
    | .error _ => []
  have hred : ∀ s : MState, red (txt c.n s.creg) = .ok (shotKey meas s) := fun s => qkReduceBits_eq ht hm s.creg
  have hK : ∀ s : MState, K (txt c.n s.creg) = shotKey meas s := fun s => by simp only [K, hred s]
  have hr := reduceCounterWith_eq red K cnt [] (fun p hp => by
    obtain ⟨s, hs, he, -⟩ := hex p hp
    rw [he, hK s, hred s])
  have hwf : PyDict.WF (cnt.foldl (fun (r : PyDict (List ℕ) ℕ) p => r.set (K p.1) p.2) []) :=
    foldl_set_nodup K cnt [] (by simp [PyDict.WF])
  have hg := fun key => get_foldl_set K key cnt []
  generalize cnt.foldl (fun (r : PyDict (List ℕ) ℕ) p => r.set (K p.1) p.2) [] = d at hr hwf hg
  have hfil : ∀ key, d.get key = none ↔ ∀ s ∈ states, shotKey meas s ≠ key := by
    intro key
    rw [hg key]
    constructor
    · intro h s hs hkey
      obtain ⟨p, hp, he⟩ := hin s hs
      have hm' : p ∈ cnt.filter (fun p => decide (K p.1 = key)) := by
        rw [List.mem_filter]; exact ⟨hp, by simp [he, hK, hkey]⟩
      cases hl : (cnt.filter (fun p => decide (K p.1 = key))).getLast? with
      | none => rw [List.getLast?_eq_none_iff] at hl; rw [hl] at hm'; cases hm'
      | some q => rw [hl] at h; cases h
    · intro h
      have : cnt.filter (fun p => decide (K p.1 = key)) = [] := by
        rw [List.filter_eq_nil_iff]
        intro p hp
        obtain ⟨s, hs, he, -⟩ := hex p hp
        simpa [he, hK] using h s hs
      rw [this]; rfl
  have h0 : ¬ (states.length = 0 ∧ d ≠ []) := by
    rintro ⟨h0, hne'⟩
    obtain ⟨⟨key, v⟩, hp⟩ := List.exists_mem_of_ne_nil d hne'
    have hgk := PyDict.get_of_mem hwf hp
    have := (hfil key).2 (by rw [List.length_eq_zero_iff.1 h0]; simp)
    rw [hgk] at this; cases this
  refine ⟨d.map (fun p : List ℕ × ℕ => (p.1, (p.2 : ℝ) / states.length)), ?_, ?_, fun key => ?_⟩
  · rw [h1]
    simp only [qkFractions, h2, show reduceCounterWith (qkReduceBits (meas.map (fun q : ℕ => (q : ℤ)))) cnt [] = .ok d from hr, if_neg h0]
    rfl
  · have : (d.map (fun p : List ℕ × ℕ => (p.1, (p.2 : ℝ) / states.length))).map Prod.fst = d.map Prod.fst := by
      simp [List.map_map, Function.comp_def]
    rw [this]; exact hwf
  · rw [get_map_snd (fun v : ℕ => (v : ℝ) / states.length) key d]
    refine ⟨by rw [Option.map_eq_none_iff]; exact hfil key, fun v hv' => ?_⟩
    obtain ⟨x, hx, rfl⟩ := Option.map_eq_some_iff.1 hv'
    rw [hg key] at hx
    cases hl : (cnt.filter (fun p => decide (K p.1 = key))).getLast? with
    | none => rw [hl] at hx; simp [PyDict.get] at hx
    | some p =>
      rw [hl] at hx
      cases hx
      have hp := List.mem_of_getLast? hl
      rw [List.mem_filter] at hp
      obtain ⟨s, hs, he, hc⟩ := hex p hp.1
      refine ⟨s, hs, by rw [← hK s, ← he]; simpa using hp.2, ?_⟩
      rw [hc, he]
      congr 2
      refine List.countP_congr (fun t _ => ?_)
      simp only [decide_eq_true_eq]
      exact ⟨txt_inj (ht.imp id And.left), txt_congr ht⟩

/-- The hypotheses can be met: `Circuit(3).h[0].crz(π)[0, 1].ccx[0, 1, 2].m[0:2]` sampled on qubit 2 only. -/
example (rnd r : ℕ → ℝ) : ∃ sampler d,
    getQiskitSampler (reportingQiskit registerText dyadicRead rnd) dyadicFmt none (some 100) () = .ok sampler ∧
    sampler ⟨3, qasmDemo⟩ [2] r = (withMeasure ⟨3, qasmDemo⟩ [2], .ok (d, r)) := by
  obtain ⟨sampler, h1, h2⟩ := C71_exact (reportingQiskit registerText dyadicRead rnd) dyadicFmt dyadicRead dyadicPi
    dyadicPi_angles dyadic_format ⟨3, qasmDemo⟩ _ qasmDemo_denotes qasmDemo_valid qasmDemo_noccz (by simp [qasmDemo])
    qasmDemo_angles none () rnd (some 100) [2] (by simp) (by simp) registerText (Or.inl rfl)
    (reportingQiskit_reports registerText dyadicRead rnd) _ rfl
  obtain ⟨d, h3, -⟩ := h2 r
  exact ⟨sampler, d, h1, h3⟩

end

end Blueqat
