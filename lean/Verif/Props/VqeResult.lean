import Verif.Props.Expect
import Verif.Props.Numpy
import Mathlib.Data.List.Sort

/-!
# Property C47: `VqeResult.most_common` and `VqeResult.get_probs`
-/

set_option linter.unusedSimpArgs false
set_option linter.unusedVariables false

namespace Blueqat

open Spec

noncomputable section

/-! ## Runs -/

theorem runStatevector_eq (c : OpsVal) (rnd : ℕ → ℝ) :
    runStatevector c rnd = asStatevector (freshRun c.n c.ops ⟨none, none, false, rnd⟩) := by
  have h1 : npParse none (some "statevector") = .ok (1, "statevector") := by decide
  have h2 : npParse none none = .ok (1, "statevector") := by decide
  simp only [runStatevector, freshRun, npRunArgs, h1, h2]

theorem runDefault_eq (c : OpsVal) (rnd : ℕ → ℝ) :
    runDefault c rnd = asStatevector (freshRun c.n c.ops ⟨none, none, false, rnd⟩) := rfl

/-- The state vector of a circuit of unitary gates. -/
theorem run_unitary (c : OpsVal) (es : List Elem) (hd : GatesDenote c.n c.ops es)
    (hv : ∀ e ∈ es, e.Valid c.n ∧ e.IsUnitary) (rnd : ℕ → ℝ) : ∃ z : ℂ, ‖z‖ = 1 ∧
      runStatevector c rnd = .ok (amplitudes c.n (fun i => z * unitaries phDoc es (fun j => if j = 0 then 1 else 0) i), rnd) ∧
      runDefault c rnd = .ok (amplitudes c.n (fun i => z * unitaries phDoc es (fun j => if j = 0 then 1 else 0) i), rnd) := by
  obtain ⟨z, h1, -, h3⟩ := C08_run c.n c.ops es hd (fun e he => (hv e he).1) (fun e he => (hv e he).2) rnd
  exact ⟨z, h1, by rw [runStatevector_eq, h3]; rfl, by rw [runDefault_eq, h3]; rfl⟩

/-! ## most_common -/

theorem sortByProb_perm (d : PyDict (List ℕ) ℝ) : (sortByProb d).Perm d := List.mergeSort_perm _ _

theorem sortByProb_sorted (d : PyDict (List ℕ) ℝ) : (sortByProb d).Pairwise (fun a b => b.2 ≤ a.2) := by
  classical
  have h := List.pairwise_mergeSort (le := fun a b : List ℕ × ℝ => decide (-a.2 ≤ -b.2))
    (by intro a b c; simp only [decide_eq_true_eq]; intro h1 h2; linarith)
    (by intro a b; simp only [Bool.or_eq_true, decide_eq_true_eq]; exact le_total _ _) d
  refine h.imp ?_
  intro a b hab
  have := of_decide_eq_true hab
  linarith

open Classical in
theorem sortByProb_stable (d : PyDict (List ℕ) ℝ) (p : ℝ) :
    (sortByProb d).filter (fun a => decide (a.2 = p)) = d.filter (fun a => decide (a.2 = p)) := by
  have h := List.sublist_mergeSort (le := fun a b : List ℕ × ℝ => decide (-a.2 ≤ -b.2))
    (by intro a b c; simp only [decide_eq_true_eq]; intro h1 h2; linarith)
    (by intro a b; simp only [Bool.or_eq_true, decide_eq_true_eq]; exact le_total _ _)
    (ys := d.filter (fun a => decide (a.2 = p))) (xs := d) (by
      refine List.pairwise_of_forall_mem_list ?_
      intro a ha b hb
      have h1 := of_decide_eq_true (List.mem_filter.1 ha).2
      have h2 := of_decide_eq_true (List.mem_filter.1 hb).2
      simp [h1, h2])
    List.filter_sublist
  have h' := h.filter (fun a => decide (a.2 = p))
  rw [List.filter_filter] at h'
  simp only [Bool.and_self] at h'
  exact (h'.eq_of_length (((sortByProb_perm d).filter _).length_eq.symm)).symm

/-- How many of `k` items `[:n]` keeps. -/
theorem sliceTo_length {α : Type} (l : List α) (n : ℤ) :
    (sliceTo l n).length = if n < 0 then l.length - n.natAbs else min n.toNat l.length := by
  rw [sliceTo, List.length_take]
  split_ifs with h <;> omega

open Classical in
/-- C47. `most_common(n)` returns, from the probabilities `get_probs()` gives, the first items of them in non-increasing
order of probability: every item left out is at most as probable as every returned one, all of the items are there if
`n` is large, and `min(n, number of items)` are returned (for negative `n` all but the `|n|` last). Among equally
probable outcomes the ones listed first come first. -/
theorem C47_most_common (r r' : VqeResult) (n : ℤ) (rnd rest : ℕ → ℝ) (probs : PyDict (List ℕ) ℝ)
    (h : r.getProbs none none true rnd = (r', .ok (probs, rest))) :
    ∃ out left, r.mostCommon n rnd = (r', .ok (out, rest)) ∧ (out ++ left).Perm probs ∧
      out.length = (if n < 0 then probs.length - n.natAbs else min n.toNat probs.length) ∧
      out.Pairwise (fun a b => b.2 ≤ a.2) ∧ (∀ a ∈ out, ∀ b ∈ left, b.2 ≤ a.2) ∧
      ∀ p : ℝ, (out.filter fun a => decide (a.2 = p)) <+: (probs.filter fun a => decide (a.2 = p)) := by
  have hs := sortByProb_sorted probs
  set k := (if n < 0 then n + (sortByProb probs).length else n).toNat with hk
  have hsplit : (sortByProb probs).take k ++ (sortByProb probs).drop k = sortByProb probs := List.take_append_drop _ _
  refine ⟨(sortByProb probs).take k, (sortByProb probs).drop k, ?_, ?_, ?_, ?_, ?_, ?_⟩
  · simp only [VqeResult.mostCommon, h]; rfl
  · rw [hsplit]; exact sortByProb_perm probs
  · have := sliceTo_length (sortByProb probs) n
    rw [(sortByProb_perm probs).length_eq] at this
    exact this
  · exact hs.sublist (List.take_sublist _ _)
  · rw [← hsplit] at hs
    intro a ha b hb
    exact (List.pairwise_append.1 hs).2.2 a ha b hb
  · intro p
    rw [← sortByProb_stable probs p]
    conv_rhs => rw [← hsplit]
    rw [List.filter_append]
    exact List.prefix_append _ _

/-- C47. `most_common` fails exactly as `get_probs` does. -/
theorem C47_most_common_error (r r' : VqeResult) (n : ℤ) (rnd : ℕ → ℝ) (e : PyErr)
    (h : r.getProbs none none true rnd = (r', .error e)) : r.mostCommon n rnd = (r', .error e) := by
  simp only [VqeResult.mostCommon, h]

/-- A result with three stored probabilities; two of them are asked for. -/
example (s : Option Sampler) (c : OpsVal) (rnd : ℕ → ℝ) :
    ∃ out left, (⟨s, c, some [([0], 1 / 4), ([1], 1 / 2), ([2], 1 / 4)]⟩ : VqeResult).mostCommon 2 rnd =
        (⟨s, c, some [([0], 1 / 4), ([1], 1 / 2), ([2], 1 / 4)]⟩, .ok (out, rnd)) ∧ out.length = 2 ∧
      (out ++ left).Perm [([0], 1 / 4), ([1], 1 / 2), ([2], 1 / 4)] := by
  obtain ⟨out, left, h1, h2, h3, -⟩ := C47_most_common ⟨s, c, some [([0], 1 / 4), ([1], 1 / 2), ([2], 1 / 4)]⟩ _ 2 rnd rnd
    [([0], 1 / 4), ([1], 1 / 2), ([2], 1 / 4)] rfl
  exact ⟨out, left, h1, h3, h2⟩

/-! ## get_probs -/

/-- C47. Stored probabilities are returned, without sampling and without any change, unless a rerun is requested
(`rerun=True`, or `rerun` not given and a sampler given). -/
theorem C47_stored (r : VqeResult) (probs : PyDict (List ℕ) ℝ) (hp : r.probs = some probs) (sampler : Option Sampler)
    (rerun : Option Bool) (hr : rerun = some false ∨ (rerun = none ∧ sampler = none)) (store : Bool) (rnd : ℕ → ℝ) :
    r.getProbs sampler rerun store rnd = (r, .ok (probs, rnd)) := by
  rcases hr with rfl | ⟨rfl, rfl⟩ <;> simp [VqeResult.getProbs, hp]

/-- C47. Otherwise (nothing stored, or a rerun requested) the sampler given, or else the one of the `Vqe` object, is
called once with the circuit and all its qubits in order; its result is returned, and it replaces the stored result
exactly if `store` is true. If the sampler raises, so does `get_probs`, and the stored result stays. -/
theorem C47_fresh (r : VqeResult) (sampler : Option Sampler) (rerun : Option Bool)
    (hr : r.probs = none ∨ rerun = some true ∨ (rerun = none ∧ sampler.isSome = true)) (s : Sampler)
    (hs : sampler = some s ∨ (sampler = none ∧ r.sampler = some s)) (store : Bool) (rnd : ℕ → ℝ) :
    (∀ c probs rest, s r.circuit ((List.range r.circuit.n).map (fun k : ℕ => (k : ℤ))) rnd = (c, .ok (probs, rest)) →
      r.getProbs sampler rerun store rnd =
        (⟨r.sampler, c, if store then some probs else r.probs⟩, .ok (probs, rest))) ∧
    ∀ c e, s r.circuit ((List.range r.circuit.n).map (fun k : ℕ => (k : ℤ))) rnd = (c, .error e) →
      r.getProbs sampler rerun store rnd = (⟨r.sampler, c, r.probs⟩, .error e) := by
  have hm : r.measureProbs sampler rnd = s r.circuit ((List.range r.circuit.n).map (fun k : ℕ => (k : ℤ))) rnd := by
    rcases hs with rfl | ⟨rfl, h⟩
    · rfl
    · simp only [VqeResult.measureProbs, h]; rfl
  constructor
  · intro c probs rest h
    rw [h] at hm
    simp only [VqeResult.getProbs, hm]
    rcases hr with hr | rfl | ⟨rfl, hr⟩
    · rw [hr]; cases store <;> rfl
    · cases hp : r.probs <;> cases store <;> simp
    · cases hp : r.probs <;> cases store <;> simp [hr]
  · intro c e h
    rw [h] at hm
    simp only [VqeResult.getProbs, hm]
    rcases hr with hr | rfl | ⟨rfl, hr⟩
    · rw [hr]
    · cases hp : r.probs <;> simp
    · cases hp : r.probs <;> simp [hr]

/-- C47. The obsolete property `probs`: the stored result, without any change, if there is one; otherwise the sampler of the `Vqe`
object is called once with the circuit and all its qubits, and its result is stored. Once `probs` has returned a result, it goes on to
return that same result. -/
theorem C47_attribute (r : VqeResult) (rnd : ℕ → ℝ) :
    (∀ probs, r.probs = some probs → r.probsAttr rnd = (r, .ok (probs, rnd))) ∧
    (∀ s c probs rest, r.probs = none → r.sampler = some s →
      s r.circuit ((List.range r.circuit.n).map (fun k : ℕ => (k : ℤ))) rnd = (c, .ok (probs, rest)) →
      r.probsAttr rnd = (⟨r.sampler, c, some probs⟩, .ok (probs, rest))) ∧
    (∀ r' probs rest, r.probsAttr rnd = (r', .ok (probs, rest)) → ∀ rnd', r'.probsAttr rnd' = (r', .ok (probs, rnd'))) := by
  refine ⟨fun probs hp => C47_stored r probs hp none none (.inr ⟨rfl, rfl⟩) true rnd, fun s c probs rest hp hs h => ?_,
    fun r' probs rest h rnd' => ?_⟩
  · exact (C47_fresh r none none (.inl hp) s (.inr ⟨rfl, hs⟩) true rnd).1 c probs rest h
  · refine C47_stored r' probs ?_ none none (.inr ⟨rfl, rfl⟩) true rnd'
    simp only [VqeResult.probsAttr, VqeResult.getProbs] at h
    cases hp : r.probs with
    | some p =>
      simp only [hp, Option.isSome_none, Bool.false_eq_true, if_false, Prod.mk.injEq, Except.ok.injEq] at h
      obtain ⟨rfl, rfl, -⟩ := h
      exact hp
    | none =>
      simp only [hp] at h
      rcases hm : r.measureProbs none rnd with ⟨c, e | ⟨p, rest'⟩⟩
      · rw [hm] at h; simp at h
      · rw [hm] at h
        simp only [if_true, Prod.mk.injEq, Except.ok.injEq] at h
        obtain ⟨rfl, rfl, -⟩ := h
        rfl

/-- A `Vqe` object with a sampler that always gives the same result. -/
example (c : OpsVal) (rnd : ℕ → ℝ) :
    ((⟨some (fun c _ rnd => (c, .ok ([([0], 1)], rnd))), c, none⟩ : VqeResult).probsAttr rnd).2 = .ok ([([0], 1)], rnd) := by
  rw [(C47_attribute _ rnd).2.1 _ c [([0], 1)] rnd rfl rfl rfl]

theorem bitsAt_range_inj {n i j : ℕ} (hi : i < 2 ^ n) (hj : j < 2 ^ n)
    (h : bitsAt (List.range n) i = bitsAt (List.range n) j) : i = j := by
  rw [bitsAt_eq_iff] at h
  refine Nat.eq_of_testBit_eq (fun q => ?_)
  by_cases hq : q < n
  · exact h q (by simpa using hq)
  · have : 2 ^ n ≤ 2 ^ q := Nat.pow_le_pow_right (by norm_num) (by omega)
    rw [Nat.testBit_lt_two_pow (by omega), Nat.testBit_lt_two_pow (by omega)]

theorem outcomeProb_range (n : ℕ) (ψ : Vec) (i : ℕ) (hi : i < 2 ^ n) :
    outcomeProb (amplitudes n ψ) (List.range n) (bitsAt (List.range n) i) = ‖ψ i‖ ^ 2 := by
  have hlen : (amplitudes n ψ).length = 2 ^ n := by simp [amplitudes]
  rw [outcomeProb, hlen]
  rw [Finset.sum_eq_single_of_mem i]
  · simp [amplitudes, hi]
  · simp [hi]
  · intro j hj hne
    have := Finset.mem_filter.1 hj
    exact absurd (bitsAt_range_inj (by simpa using this.1) hi this.2) hne

open Classical in
/-- C47. Without any sampler the result is exact: for a circuit of unitary gates with valid targets the probability of
every outcome is that of its basis state, outcomes of probability 0 are left out, the circuit is unchanged and no random
number is used. -/
theorem C47_exact (r : VqeResult) (hs : r.sampler = none) (es : List Elem) (hd : GatesDenote r.circuit.n r.circuit.ops es)
    (hv : ∀ e ∈ es, e.Valid r.circuit.n ∧ e.IsUnitary) (rerun : Option Bool)
    (hr : r.probs = none ∨ rerun = some true) (store : Bool) (rnd : ℕ → ℝ) :
    ∃ probs, r.getProbs none rerun store rnd =
        (⟨none, r.circuit, if store then some probs else r.probs⟩, .ok (probs, rnd)) ∧
      (probs.map Prod.fst).Nodup ∧ (∀ p ∈ probs, ∃ i < 2 ^ r.circuit.n, p.1 = bitsAt (List.range r.circuit.n) i) ∧
      ∀ i < 2 ^ r.circuit.n, let a := unitaries phDoc es (fun j => if j = 0 then 1 else 0) i
        probs.get (bitsAt (List.range r.circuit.n) i) = if a = 0 then none else some (‖a‖ ^ 2) := by
  obtain ⟨z, hz, hrun, -⟩ := run_unitary r.circuit es hd hv rnd
  set ψ := unitaries phDoc es (fun j => if j = 0 then 1 else 0) with hψ
  obtain ⟨d, h1, h2, h3, -⟩ := C43_expect (amplitudes r.circuit.n (fun i => z * ψ i)) (List.range r.circuit.n)
  have hm : r.measureProbs none rnd = (r.circuit, .ok (d, rnd)) := by
    simp only [VqeResult.measureProbs, hs, hrun, bind, Except.bind, qubitRange, h1]
  have key : ∀ i < 2 ^ r.circuit.n, d.get (bitsAt (List.range r.circuit.n) i) = if ψ i = 0 then none else some (‖ψ i‖ ^ 2) := by
    intro i hi
    rw [h3, outcomeProb_range _ _ _ hi]
    simp only [norm_mul, hz, one_mul, pow_eq_zero_iff, ne_eq, OfNat.ofNat_ne_zero, not_false_eq_true, norm_eq_zero]
  refine ⟨d, ?_, h2, ?_, key⟩
  · obtain ⟨sa, c, pr⟩ := r
    simp only at hs hr hm
    subst hs
    simp only [VqeResult.getProbs, hm]
    rcases hr with rfl | rfl
    · cases store <;> rfl
    · cases pr <;> cases store <;> simp
  · rintro ⟨k, p⟩ hp
    have hg := PyDict.get_of_mem h2 hp
    rw [h3] at hg
    split_ifs at hg with h0
    by_contra hne
    push_neg at hne
    apply h0
    refine Finset.sum_eq_zero (fun i hi => ?_)
    have := Finset.mem_filter.1 hi
    exact absurd this.2.symm (hne i (by simpa [amplitudes] using this.1))

/-- The Bell circuit. -/
example (rnd : ℕ → ℝ) : ∃ probs, (⟨none, ⟨2, [on1 .h 0, on2 .cx 0 1]⟩, none⟩ : VqeResult).getProbs none none true rnd =
    (⟨none, ⟨2, [on1 .h 0, on2 .cx 0 1]⟩, some probs⟩, .ok (probs, rnd)) ∧ probs.get [1, 0] = none := by
  have hd : GatesDenote 2 [on1 .h 0, on2 .cx 0 1] [.one .h 0, .two .cx 0 1] :=
    ⟨_, _, gateDenotes_on1 2 .h 0, ⟨_, _, gateDenotes_on2 2 .cx 0 1 (by norm_num), rfl, rfl⟩, rfl⟩
  obtain ⟨probs, h1, -, -, h4⟩ := C47_exact ⟨none, ⟨2, [on1 .h 0, on2 .cx 0 1]⟩, none⟩ rfl
    [.one .h 0, .two .cx 0 1] hd (by simp [Elem.Valid, Elem.IsUnitary]) none (.inl rfl) true rnd
  refine ⟨probs, by simpa using h1, ?_⟩
  have := h4 1 (by norm_num)
  simp [unitaries, Elem.unitary, matrix1, op2, ctrl, app, mH, mX, flipBit, bitsAt, List.range_succ] at this
  exact this

end

end Blueqat
