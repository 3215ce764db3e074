import Verif.NumbaRefine
import Verif.NumbaCache
import Verif.NpShots
import Verif.Spec.Parallel
import Verif.Spec.RunNumba
import Verif.Props.Utils
import Verif.Props.Numpy

/-!
# C21, C22, C23 and the numba halves of C25 and C57
-/

set_option linter.unusedSimpArgs false
set_option linter.unusedVariables false

namespace Blueqat

open Spec

noncomputable section

/-! ## C21 -/

/-- C21, one qubit: on a register of `n ≤ 64` qubits, `i ↦ _shifted(lower_mask, i)` maps the loop counters
`0, ..., 2^(n-1)-1` one-to-one onto the indices below `2^n` whose bit `t` is 0. -/
theorem C21_shifted (n t : ℕ) (ht : t < n) (hn : n ≤ 64) :
    Set.BijOn (fun i : ℕ => (nbShifted (((1 : U64) <<< t) - 1) (BitVec.ofNat 64 i)).toNat)
      {i | i < 2 ^ (n - 1)} {j | j < 2 ^ n ∧ j.testBit t = false} := by
  have hL := pairLoop1 ht hn
  refine ⟨?_, ?_, ?_⟩
  · intro i hi
    simp only [Set.mem_setOf_eq] at hi ⊢
    rw [shifted_eq ht hn hi]
    exact ⟨hL.lt i hi, (hL.sel i hi).2⟩
  · intro i hi j hj h
    simp only [Set.mem_setOf_eq] at hi hj h
    rw [shifted_eq ht hn hi, shifted_eq ht hn hj] at h
    exact insertZero_inj t h
  · rintro a ⟨ha, hb⟩
    obtain ⟨i, hi, he⟩ := hL.surj a ha rfl hb
    refine ⟨i, hi, ?_⟩
    simp only
    rw [shifted_eq ht hn hi]; exact he

/-- C21, any number of qubits: for distinct qubits `l` of a register of `n ≤ 64` qubits, in any order,
`i ↦ _mult_shifted(_create_masks(l), i)` maps the loop counters `0, ..., 2^(n-k)-1`, `k` the number of qubits,
one-to-one onto the indices below `2^n` in which all the bits `l` are 0. -/
theorem C21_mult_shifted (n : ℕ) (l : List ℕ) (hl : l.Nodup) (hx : ∀ x ∈ l, x < n) (hn : n ≤ 64) :
    Set.BijOn (fun i : ℕ => (nbMultShifted (nbCreateMasks l) (BitVec.ofNat 64 i)).toNat)
      {i | i < 2 ^ (n - l.length)} {j | j < 2 ^ n ∧ ∀ x ∈ l, j.testBit x = false} := by
  have hs := sorted_mergeSort l hl
  have hmem : ∀ x, x ∈ l.mergeSort (fun a b => decide (a ≤ b)) ↔ x ∈ l := fun x => (List.mergeSort_perm l _).mem_iff
  have hlen : (l.mergeSort (fun a b => decide (a ≤ b))).length = l.length := by simp
  have hlt : ∀ i, insertZeros (l.mergeSort (fun a b => decide (a ≤ b))) i < 2 ^ n ↔ i < 2 ^ (n - l.length) := by
    intro i
    rw [insertZeros_lt _ hs i n (fun x h => hx x ((hmem x).1 h)), hlen]
  refine ⟨?_, ?_, ?_⟩
  · intro i hi
    simp only [Set.mem_setOf_eq] at hi ⊢
    rw [multShifted_eq hl hx hn hi]
    exact ⟨(hlt i).2 hi, fun x h => insertZeros_zero _ hs i x ((hmem x).2 h)⟩
  · intro i hi j hj h
    simp only [Set.mem_setOf_eq] at hi hj h
    rw [multShifted_eq hl hx hn hi, multShifted_eq hl hx hn hj] at h
    exact insertZeros_inj _ h
  · rintro a ⟨ha, hb⟩
    obtain ⟨i, he⟩ := insertZeros_surj _ hs a (fun x h => hb x ((hmem x).1 h))
    have hi : i < 2 ^ (n - l.length) := by rw [← hlt, he]; exact ha
    refine ⟨i, hi, ?_⟩
    simp only
    rw [multShifted_eq hl hx hn hi]; exact he

/-- The loop bounds `1 << (n_qubits - k)` are the `2^(n-k)` of the two theorems above. -/
theorem C21_loop_counts (n : ℕ) (hn : n ≤ 64) (body : ℕ → ℕ → List Ins) :
    (∀ t < n, (iters1 body n t).length = 2 ^ (n - 1)) ∧
    (∀ (cs : List ℕ) t, (cs ++ [t]).Nodup → (∀ x ∈ cs ++ [t], x < n) →
      (itersC body n cs t).length = 2 ^ (n - (cs.length + 1))) := by
  constructor
  · intro t ht; rw [iters1_eq body ht hn]; simp
  · intro cs t hd hx
    have hk : (cs ++ [t]).length ≤ n := by
      have h1 : (cs ++ [t]).toFinset ⊆ Finset.range n := by
        intro x hxm; rw [List.mem_toFinset] at hxm; exact Finset.mem_range.2 (hx x hxm)
      have := Finset.card_le_card h1
      rwa [List.toFinset_card_of_nodup hd, Finset.card_range] at this
    rw [itersC_eq body hn hx hd hk]; simp

theorem mapM_first_error {α β : Type} (f : α → Except PyErr β) (is : List α) (hok : ∀ a ∈ is, ∃ b, f a = .ok b) (x : α) (e : PyErr)
    (hx : f x = .error e) (rest : List α) : (is ++ x :: rest).mapM f = .error e := by
  induction is with
  | nil => rw [List.nil_append, List.mapM_cons, hx]; rfl
  | cons a is ih =>
    obtain ⟨b, hb⟩ := hok a (by simp)
    rw [List.cons_append, List.mapM_cons, hb, show (bind (Except.ok b) _ : Except PyErr (List β)) = _ from rfl,
      ih (fun a ha => hok a (by simp [ha]))]
    rfl

/-- C21. The kernels of `ccz` and `ccx` never see anything but integers: a slice as target raises TypeError, and a tuple inside the
tuple raises ValueError, whatever comes after it; so does a subscript that is not a tuple (TypeError). -/
theorem C21_three_rejected (n : ℕ) (k : G3) (T : Targets) (f : Arr → Except PyErr Arr) (hf : nbArr n (.g3 k T) = some f) (q : Arr) :
    (∀ a, T = .one a → f q = .error .typeError) ∧
    (∀ (is : List ℤ) (a : Atom) rest, T = .tup (is.map (fun i => .atom (.int i)) ++ .atom a :: rest) → (∀ i, a ≠ .int i) →
      f q = .error .typeError) ∧
    (∀ (is : List ℤ) xs rest, T = .tup (is.map (fun i => .atom (.int i)) ++ .tup xs :: rest) → f q = .error .valueError) := by
  cases hb : nbBody3 k with
  | none => simp [nbArr, hb] at hf
  | some b =>
    simp only [nbArr, hb, Option.map_some, Option.some.injEq] at hf
    subst hf
    refine ⟨?_, ?_, ?_⟩
    · rintro a rfl; rfl
    · rintro is a rest rfl ha
      have : nbIntArray (.tup (is.map (fun i => .atom (.int i)) ++ .atom a :: rest)) = .error .typeError := by
        refine mapM_first_error _ _ ?_ _ _ ?_ _
        · rintro x hx
          obtain ⟨i, -, rfl⟩ := List.mem_map.1 hx
          exact ⟨i, rfl⟩
        · cases a with
          | int i => exact absurd rfl (ha i)
          | slice => rfl
          | bad => rfl
      simp only [this]; rfl
    · rintro is xs rest rfl
      have : nbIntArray (.tup (is.map (fun i => .atom (.int i)) ++ .tup xs :: rest)) = .error .valueError := by
        refine mapM_first_error _ _ ?_ _ _ ?_ _
        · rintro x hx
          obtain ⟨i, -, rfl⟩ := List.mem_map.1 hx
          exact ⟨i, rfl⟩
        · rfl
      simp only [this]; rfl

/-- `ccx[0, 1:, 2]`. -/
example (q : Arr) : ∃ f, nbArr 3 (.g3 .ccx (.tup [.atom (.int 0), .atom (.slice (some 1) none none), .atom (.int 2)])) = some f ∧
    f q = .error .typeError :=
  ⟨_, rfl, (C21_three_rejected 3 .ccx _ _ rfl q).2.1 [0] (.slice (some 1) none none) [.atom (.int 2)] rfl (by simp)⟩

/-- Three distinct qubits, not sorted, of a register of 64. -/
example : [5, 63, 0].Nodup ∧ ∀ x ∈ [5, 63, 0], x < 64 := by decide

/-! ## C22 -/

/-- The loop bodies run by gates: every gate kernel, the two projections of a measurement and the move of a reset. -/
inductive GateBody : (ℕ → ℕ → List Ins) → Prop
  | one (k : G1) (b : ℕ → ℕ → List Ins) (h : nbBody1 k = some b) : GateBody b
  | two (k : G2) (b : ℕ → ℕ → List Ins) (h : nbBody2 k = some b) : GateBody b
  | three (k : G3) (b : ℕ → ℕ → List Ins) (h : nbBody3 k = some b) : GateBody b
  | reduce0 (r : ℂ) : GateBody (insReduce0 r)
  | reduce1 (r : ℂ) : GateBody (insReduce1 r)
  | reset1 (r : ℂ) : GateBody (insReset1 r)

theorem gateBody_acts {b : ℕ → ℕ → List Ins} (h : GateBody b) : ∃ F G, Acts b F G := by
  cases h with
  | one k b h => exact ⟨_, _, nbBody1_acts h⟩
  | two k b h => obtain ⟨M, hM, -⟩ := nbBody2_acts h; exact ⟨_, _, hM⟩
  | three k b h => obtain ⟨M, hM, -⟩ := nbBody3_acts h; exact ⟨_, _, hM⟩
  | reduce0 r => exact ⟨_, _, acts_insReduce0 r⟩
  | reduce1 r => exact ⟨_, _, acts_insReduce1 r⟩
  | reset1 r => exact ⟨_, _, acts_insReset1 r⟩

theorem nodup_lt_length {n : ℕ} {l : List ℕ} (hd : l.Nodup) (hx : ∀ x ∈ l, x < n) : l.length ≤ n := by
  have h1 : l.toFinset ⊆ Finset.range n := by
    intro x hxm; rw [List.mem_toFinset] at hxm; exact Finset.mem_range.2 (hx x hxm)
  have := Finset.card_le_card h1
  rwa [List.toFinset_card_of_nodup hd, Finset.card_range] at this

theorem pairLoop_addr {n t N : ℕ} {C : ℕ → Bool} {f g : ℕ → ℕ} (h : PairLoop n t N C f g) (ht : t < n)
    {body : ℕ → ℕ → List Ins} (hb : ∀ i0 i1 a, Touches (body i0 i1) a → a = i0 ∨ a = i1) :
    ∀ p ∈ (List.range N).map (fun i => body (f i) (g i)), ∀ i ∈ p, address i < 2 ^ n := by
  intro p hp i hi
  obtain ⟨j, hj, rfl⟩ := List.mem_map.1 hp
  rw [List.mem_range] at hj
  rcases hb _ _ _ ⟨i, hi, rfl⟩ with h1 | h1
  · rw [h1]; exact h.lt j hj
  · rw [h1, h.flip j hj]; exact flipBit_lt ht (h.lt j hj)

/-- C22 for the loops over one qubit: whatever array of `2^n` numbers the kernel is called on and however the reads
and writes of the iterations interleave, all accesses are inside the array, the loop ends with the array that the
iterations one after the other give, and some schedule ends. -/
theorem C22_parallel_one (n t : ℕ) (ht : t < n) (hn : n ≤ 64) (body : ℕ → ℕ → List Ins) (hb : GateBody body)
    (q : Arr) (hq : q.length = 2 ^ n) :
    (∀ p ∈ iters1 body n t, ∀ i ∈ p, address i < q.length) ∧
    ∀ q', ParallelRun (iters1 body n t) q q' ↔ q' = runIters (iters1 body n t) q := by
  obtain ⟨F, G, hA⟩ := gateBody_acts hb
  have hap : Apart (iters1 body n t) := by rw [iters1_eq body ht hn]; exact (pairLoop1 ht hn).apart hA.touch
  refine ⟨?_, fun q' => ⟨fun h => parallel_eq _ hap q q' h, fun h => by rw [h]; exact parallel_exists _ q⟩⟩
  rw [iters1_eq body ht hn, hq]
  exact pairLoop_addr (pairLoop1 ht hn) ht hA.touch

/-- C22 for the loops over a target and any number of controls. -/
theorem C22_parallel_controlled (n t : ℕ) (cs : List ℕ) (hd : (cs ++ [t]).Nodup) (hx : ∀ x ∈ cs ++ [t], x < n)
    (hn : n ≤ 64) (body : ℕ → ℕ → List Ins) (hb : GateBody body) (q : Arr) (hq : q.length = 2 ^ n) :
    (∀ p ∈ itersC body n cs t, ∀ i ∈ p, address i < q.length) ∧
    ∀ q', ParallelRun (itersC body n cs t) q q' ↔ q' = runIters (itersC body n cs t) q := by
  obtain ⟨F, G, hA⟩ := gateBody_acts hb
  have hk := nodup_lt_length hd hx
  have hap : Apart (itersC body n cs t) := by
    rw [itersC_eq body hn hx hd hk]; exact (pairLoopC hn hx hd).apart hA.touch
  refine ⟨?_, fun q' => ⟨fun h => parallel_eq _ hap q q' h, fun h => by rw [h]; exact parallel_exists _ q⟩⟩
  rw [itersC_eq body hn hx hd hk, hq]
  exact pairLoop_addr (pairLoopC hn hx hd) (hx t (by simp)) hA.touch

/-- C22, the result: every schedule of a one-qubit kernel applies the textbook operator of the gate. -/
theorem C22_result_one (n t : ℕ) (ht : t < n) (hn : n ≤ 64) (k : G1) (body : ℕ → ℕ → List Ins)
    (hb : nbBody1 k = some body) (ψ : Vec) (q' : Arr) (h : ParallelRun (iters1 body n t) (amplitudes n ψ) q') :
    q' = amplitudes n (app (matrix1 k) t ψ) := by
  have h1 := ((C22_parallel_one n t ht hn body (.one k body hb) (amplitudes n ψ) (by simp [amplitudes])).2 q').1 h
  rw [h1, ← vec_eq_amplitudes, iters1_run (nbBody1_acts hb) ht hn]
  rfl

/-- C22, the result: every schedule of a two-qubit kernel applies the operator of the gate. -/
theorem C22_result_two (n c t : ℕ) (hc : c < n) (ht : t < n) (hct : c ≠ t) (hn : n ≤ 64) (k : G2)
    (body : ℕ → ℕ → List Ins) (hb : nbBody2 k = some body) (ψ : Vec) (q' : Arr)
    (h : ParallelRun (itersC body n [c] t) (amplitudes n ψ) q') : q' = amplitudes n (op2 phDoc k c t ψ) := by
  have hd : ([c] ++ [t]).Nodup := by simp [hct]
  have hx : ∀ x ∈ [c] ++ [t], x < n := by simp [hc, ht]
  have h1 := ((C22_parallel_controlled n t [c] hd hx hn body (.two k body hb) (amplitudes n ψ)
    (by simp [amplitudes])).2 q').1 h
  obtain ⟨M, hM, hop⟩ := nbBody2_acts hb
  have hdoc : op2 phDoc k c t = op2 phSim k c t := by
    cases k <;> first | rfl | simp [nbBody2] at hb
  rw [h1, hdoc, hop, ← vec_eq_amplitudes, itersC_eq body hn hx hd (nodup_lt_length hd hx),
    (pairLoopC hn hx hd).run ht hM, ← vec_eq_amplitudes]
  apply vec_congr; intro i _
  simp only [allSet, List.all_cons, List.all_nil, Bool.and_true, ctrl]
  rfl

/-- C22, the reduction of `_p0calc`: however the iterations are split into chunks, in whatever order each chunk adds
its terms and in whatever order the partial sums are added, the sum is the probability of outcome 0. Over the reals;
rounding is not modelled. -/
theorem C22_p0_reduction (n t : ℕ) (ht : t < n) (hn : n ≤ 64) (ψ : Vec) (chunks : List (List ℕ))
    (hc : chunks.flatten.Perm (List.range (2 ^ (n - 1)))) :
    (chunks.map fun ch => (ch.map fun i =>
      ‖(amplitudes n ψ).getD (nbShifted (((1 : U64) <<< t) - 1) (BitVec.ofNat 64 i)).toNat 0‖ ^ 2).sum).sum =
      nbP0 n t (amplitudes n ψ) ∧ nbP0 n t (amplitudes n ψ) = prob n t false ψ := by
  refine ⟨?_, by rw [← vec_eq_amplitudes]; exact nbP0_eq ht hn ψ⟩
  have h1 : ∀ (f : ℕ → ℝ), (chunks.map fun ch => (ch.map f).sum).sum = (chunks.flatten.map f).sum := by
    intro f
    clear hc
    induction chunks with
    | nil => rfl
    | cons c cs ih => simp [ih]
  rw [h1, (hc.map _).sum_eq, nbP0]
  simp only
  have hN := loopCount (n := n) (k := 1) (by omega) (by omega) hn
  rw [show ((1 : U64) <<< ((BitVec.ofNat 64 n : U64) - 1).toNat).toNat = 2 ^ (n - 1) from hN, ← List.sum_eq_foldl]
  congr 1
  apply List.map_congr_left
  intro i _
  rw [← Complex.normSq_eq_norm_sq, Complex.normSq_apply]

/-- Two chunks, out of order. -/
example : [[3, 1], [0, 2]].flatten.Perm (List.range (2 ^ (3 - 1))) := by decide

/-- The bodies exist, e.g. that of `h`, on qubit 2 of 3. -/
example : GateBody insH ∧ (2 : ℕ) < 3 := ⟨.one .h _ rfl, by norm_num⟩

/-- Two iterations that touch the same element do depend on the schedule: the property is not a matter of course. -/
example : ∃ ps q q1 q2, ParallelRun ps q q1 ∧ ParallelRun ps q q2 ∧ q1 ≠ q2 := by
  refine ⟨[[.store 0 fun _ _ => 1], [.store 0 fun _ _ => 2]], [0], [2], [1], ?_, ?_, by simp⟩
  · exact parallel_exists _ _
  · refine ⟨[⟨[], ⟨0, 0⟩⟩, ⟨[], ⟨0, 0⟩⟩], ?_, by simp [Done]⟩
    refine Relation.ReflTransGen.trans (.single (Step.mk [0] (startThreads _) 1 _ _ _ rfl rfl)) ?_
    exact .single (Step.mk [2] [⟨[.store 0 fun _ _ => 1], ⟨0, 0⟩⟩, ⟨[], ⟨0, 0⟩⟩] 0 _ _ _ rfl rfl)

/-! ## C23 -/

theorem nbPlain_refine {P : Prop} {n : ℕ} (hn : n ≤ 64) (gs : List Gate) : ∀ (es : List Elem), GatesDenote n gs es →
    (∀ e ∈ es, e.Valid n) → (∀ e ∈ es, P ∨ e.IsUnitary) → ∀ (c : NbCtx) (s : MState), NbRel P n c s →
    ∃ c', nbPlain n gs c = .ok c' ∧ NbRel P n c' (steps phSim n es s) := by
  induction gs with
  | nil => intro es hd _ _ p s h; simp only [GatesDenote] at hd; subst hd; exact ⟨p, rfl, h⟩
  | cons g gs ih =>
    rintro es ⟨e1, e2, h1, h2, rfl⟩ hv hq p s h
    obtain ⟨p1, hp1, hr1⟩ := nbRunGate_refine hn g e1 h1 (fun e he => hv e (by simp [he]))
      (fun e he => hq e (by simp [he])) p s h
    obtain ⟨p2, hp2, hr2⟩ := ih e2 h2 (fun e he => hv e (by simp [he])) (fun e he => hq e (by simp [he])) p1 _ hr1
    refine ⟨p2, ?_, ?_⟩
    · simp only [nbPlain, hp1, hp2]
    · rw [steps, List.foldl_append]; exact hr2

theorem plainShots_same {P : Prop} {n : ℕ} (hn : n ≤ 64) {gates : List Gate} {es : List Elem}
    (hd : GatesDenote n gates es) (hv : ∀ e ∈ es, e.Valid n) (hq : ∀ e ∈ es, P ∨ e.IsUnitary) (k : ℕ) :
    ∀ (c : NbCtx) (res : Counter), (P → InUnit c.rnd) →
    ∃ c' res', nbPlainShots n gates k c res = .ok (c', res') ∧
      plainShots n gates k ⟨c.qubits, c.cregs, c.rnd⟩ res = .ok (⟨c'.qubits, c'.cregs, c'.rnd⟩, res') := by
  induction k with
  | zero => intro c res _; exact ⟨c, res, rfl, rfl⟩
  | succ k ih =>
    intro c res hr
    have h0 := pRel_init (P := P) n c.rnd hr
    obtain ⟨p, hp, hpr⟩ := plainGates_refine gates es hd hv hq _ _ h0
    obtain ⟨c1, hc, hcr⟩ := nbPlain_refine hn gates es hd hv hq ⟨q0 n, List.replicate n 0, c.rnd⟩ (initState c.rnd)
      ⟨h0.q, h0.cr, h0.rnd, h0.good⟩
    have e : p = ⟨c1.qubits, c1.cregs, c1.rnd⟩ := by
      obtain ⟨a, b, d⟩ := p
      have h1 := hpr.q; have h2 := hpr.cr; have h3 := hpr.rnd
      simp only at h1 h2 h3
      rw [h1, h2, h3, hcr.qubits, hcr.cregs, hcr.rnd]
    subst e
    simp only [nbPlainShots, plainShots, hc, hp]
    exact ih c1 _ (fun hP => by have := (hcr.good hP).2; rw [hcr.rnd]; exact this)

theorem nbParse_eq (s : Option ℤ) (r : Option String) : nbParse s r = npParse s r := by
  cases s <;> cases r <;> simp only [nbParse, npParse, nbReturnTypes, npReturnTypes, Option.isNone]
  · simp
  · rename_i r
    by_cases h : r ∈ ["statevector", "shots", "statevector_and_shots", "_inner_ctx"]
    · by_cases h2 : r = "statevector" ∨ r = "_inner_ctx" <;> simp only [h, h2, if_true, if_false]
    · simp only [h, if_false]
  · simp
  · rename_i k r
    by_cases h : r ∈ ["statevector", "shots", "statevector_and_shots", "_inner_ctx"] <;> simp only [h, if_true, if_false]

theorem nbIgnoreGlobal_eq (q : Arr) : nbIgnoreGlobal q = ignoreGlobalPhase q := rfl

/-- C23: on at most 64 qubits, for every circuit with valid targets (any gates, measurements and resets), all run
arguments and the same random numbers in [0, 1), a run on the numba backend, cache enabled or not, returns exactly
what a run on the numpy backend returns: the same state vector, the same counts, the same error for bad arguments,
and it uses the same random numbers. (By C17 and C19 this holds after any history.) Circuits without measurement and
reset need no assumption on the random numbers. Over exact complex numbers; rounding is not modelled. -/
theorem C23_numba_eq_numpy (n : ℕ) (hn : n ≤ 64) (gates : List Gate) (es : List Elem) (hd : GatesDenote n gates es)
    (hv : ∀ e ∈ es, e.Valid n) (a : NbArgs) (ha : a.interrupt = none)
    (hr : InUnit a.rnd ∨ ∀ e ∈ es, e.IsUnitary) :
    (nbRunArgs n gates NbBackend.new a).2 = freshRun n gates ⟨a.shots, a.returns, a.ignoreGlobal, a.rnd⟩ := by
  rw [(nbRunArgs_spec n gates NbBackend.new (nbCacheInv_new gates) a ha).2, nbPlainRun, freshRun, npRunArgs,
    nbParse_eq]
  cases hp : npParse a.shots a.returns with
  | error e => rfl
  | ok x =>
    obtain ⟨k, r⟩ := x
    have key : ∃ c' res', nbPlainShots n gates k.toNat ⟨List.replicate (2 ^ n) 0, [], a.rnd⟩ [] = .ok (c', res') ∧
        plainShots n gates k.toNat (npNewCtx n a.rnd).core [] = .ok (⟨c'.qubits, c'.cregs, c'.rnd⟩, res') := by
      rcases hr with hr | hr
      · exact plainShots_same (P := True) hn hd hv (fun e he => .inl trivial) k.toNat _ [] (fun _ => hr)
      · exact plainShots_same (P := False) hn hd hv (fun e he => .inr (hr e he)) k.toNat _ [] (fun h => h.elim)
    obtain ⟨c', res', h1, h2⟩ := key
    obtain ⟨be, ctx, h3, h4⟩ := run_of_shots h2
    simp only [h1, h3, ok_map]
    have e1 : ctx.qubits = c'.qubits := congrArg PSt.q h4
    have e2 : ctx.cregs = c'.cregs := congrArg PSt.cr h4
    have e3 : ctx.rnd = c'.rnd := congrArg PSt.rnd h4
    rw [e1, e2, e3]
    rfl

/-- The hypotheses hold for a Bell pair with both qubits measured. -/
example : GatesDenote 2 [.g1 .h (.one (.int 0)), .g2 .cx (.tup [.atom (.int 0), .atom (.int 1)]),
    .measure (.one (.int 1))] [.one .h 0, .two .cx 0 1, .meas 1] ∧
    (∀ e ∈ [Elem.one .h 0, .two .cx 0 1, .meas 1], e.Valid 2) ∧ InUnit (fun _ => 1 / 2) := by
  refine ⟨⟨[.one .h 0], [.two .cx 0 1, .meas 1], ⟨[0], ?_, rfl⟩, ⟨[.two .cx 0 1], [.meas 1], ⟨[(0, 1)], ?_, rfl⟩,
    ⟨[.meas 1], [], ⟨[1], ?_, rfl⟩, rfl, rfl⟩, rfl⟩, rfl⟩, ?_, ?_⟩
  · rw [← slicing_eq_iff]; rfl
  · rw [← pairsDenote_iff]; rfl
  · rw [← slicing_eq_iff]; rfl
  · simp [Elem.Valid]
  · intro k; norm_num

/-! ## Numba halves of C25 and C57 -/

/-- C25 for `_ignore_global` of the numba backend. -/
theorem C25_numba_canonical (v : Arr) (hv : ∃ z ∈ v, Noticeable z) :
    (∀ u : ℂ, ‖u‖ = 1 → nbIgnoreGlobal (v.map (fun z => u * z)) = nbIgnoreGlobal v) ∧
    (∃ u : ℂ, ‖u‖ = 1 ∧ nbIgnoreGlobal v = v.map (fun z => u * z)) ∧
    (nbIgnoreGlobal v).map (fun z => ‖z‖) = v.map (fun z => ‖z‖) ∧
    (∃ pre q post, nbIgnoreGlobal v = pre ++ q :: post ∧ (∀ z ∈ pre, ¬ Noticeable z) ∧ Noticeable q ∧
      q.im = 0 ∧ 0 < q.re) ∧
    nbIgnoreGlobal (nbIgnoreGlobal v) = nbIgnoreGlobal v := by
  simp only [nbIgnoreGlobal_eq]
  exact C25_canonical v hv

/-- C25 for the numba backend: the option `ignore_global` changes neither the cache nor the random numbers used nor
anything in the result but the phase of the returned vector. -/
theorem C25_numba_cache_unaffected (n : ℕ) (gates : List Gate) (be : NbBackend) (shots : Option ℤ)
    (returns : Option String) (en : Bool) (rnd : ℕ → ℝ) (int : Option ℕ) :
    (nbRunArgs n gates be ⟨shots, returns, en, true, rnd, int⟩).1 =
      (nbRunArgs n gates be ⟨shots, returns, en, false, rnd, int⟩).1 ∧
    (nbRunArgs n gates be ⟨shots, returns, en, true, rnd, int⟩).2 =
      (nbRunArgs n gates be ⟨shots, returns, en, false, rnd, int⟩).2.map (fun r => (match r.1 with
        | .statevector q => .statevector (nbIgnoreGlobal q)
        | .shots c => .shots c
        | .both q c => .both (nbIgnoreGlobal q) c
        | .inner q cr c => .inner (nbIgnoreGlobal q) cr c, r.2)) := by
  simp only [nbRunArgs]
  cases hp : nbParse shots returns with
  | error e => exact ⟨rfl, rfl⟩
  | ok x =>
    obtain ⟨k, r⟩ := x
    simp only
    rcases hr : nbShots n gates k.toNat (if en then be.clearIfInvalid n else ⟨none, -1⟩)
      ⟨List.replicate (2 ^ n) 0, [], rnd⟩ en int [] with ⟨be', res⟩
    cases res with
    | error e => exact ⟨rfl, rfl⟩
    | ok y =>
      obtain ⟨ctx, c⟩ := y
      refine ⟨rfl, ?_⟩
      simp only [if_true, Bool.false_eq_true, if_false, npReturn, ok_map]
      by_cases h1 : r = "statevector"
      · simp [h1]
      · by_cases h2 : r = "shots"
        · simp [h1, h2]
        · by_cases h3 : r = "statevector_and_shots"
          · simp [h1, h2, h3]
          · simp [h1, h2, h3]

/-- C57 for the numba backend: the rules for `shots` and `returns`, with the cache enabled or not. -/
theorem C57_numba_run_arguments (n : ℕ) (gates : List Gate) (be : NbBackend) (en ig : Bool) (rnd : ℕ → ℝ)
    (int : Option ℕ) :
    (nbRunArgs n gates be ⟨none, none, en, ig, rnd, int⟩ =
      nbRunArgs n gates be ⟨some 1, some "statevector", en, ig, rnd, int⟩) ∧
    (∀ k, nbRunArgs n gates be ⟨some k, none, en, ig, rnd, int⟩ =
      nbRunArgs n gates be ⟨some k, some "shots", en, ig, rnd, int⟩) ∧
    (∀ r, r = "statevector" ∨ r = "_inner_ctx" → nbRunArgs n gates be ⟨none, some r, en, ig, rnd, int⟩ =
      nbRunArgs n gates be ⟨some 1, some r, en, ig, rnd, int⟩) ∧
    (∀ r, r = "shots" ∨ r = "statevector_and_shots" → nbRunArgs n gates be ⟨none, some r, en, ig, rnd, int⟩ =
      nbRunArgs n gates be ⟨some 1024, some r, en, ig, rnd, int⟩) ∧
    (∀ k v rest, (nbRunArgs n gates be ⟨k, some "statevector", en, ig, rnd, int⟩).2 = .ok (v, rest) →
      ∃ q, v = .statevector q) ∧
    (∀ k v rest, (nbRunArgs n gates be ⟨k, some "shots", en, ig, rnd, int⟩).2 = .ok (v, rest) → ∃ c, v = .shots c) ∧
    (∀ k v rest, (nbRunArgs n gates be ⟨k, some "statevector_and_shots", en, ig, rnd, int⟩).2 = .ok (v, rest) →
      ∃ q c, v = .both q c) ∧
    (∀ k v rest, (nbRunArgs n gates be ⟨k, some "_inner_ctx", en, ig, rnd, int⟩).2 = .ok (v, rest) →
      ∃ q cr c, v = .inner q cr c) ∧
    (∀ k r, r ∉ ["statevector", "shots", "statevector_and_shots", "_inner_ctx"] →
      nbRunArgs n gates be ⟨k, some r, en, ig, rnd, int⟩ = (be, .error .valueError)) := by
  have hshape : ∀ (k : Option ℤ) (r : String) (v : NpVal) (rest : ℕ → ℝ),
      (nbRunArgs n gates be ⟨k, some r, en, ig, rnd, int⟩).2 = .ok (v, rest) → ∃ q cr c, v = npReturn r q cr c := by
    intro k r v rest h
    simp only [nbRunArgs] at h
    cases hp : nbParse k (some r) with
    | error e => rw [hp] at h; cases h
    | ok x =>
      obtain ⟨s, r'⟩ := x
      have hr' : r' = r := by
        rw [nbParse_eq] at hp
        by_cases hm : r ∈ npReturnTypes
        · rw [npParse_some k r hm] at hp
          simp only [Except.ok.injEq, Prod.mk.injEq] at hp
          exact hp.2.symm
        · rw [npParse_bad k r hm] at hp; cases hp
      rw [hp] at h
      simp only at h
      rcases hr : nbShots n gates s.toNat (if en then be.clearIfInvalid n else ⟨none, -1⟩)
        ⟨List.replicate (2 ^ n) 0, [], rnd⟩ en int [] with ⟨be', res⟩
      rw [hr] at h
      cases res with
      | error e => cases h
      | ok y =>
        simp only [Except.ok.injEq, Prod.mk.injEq] at h
        rw [hr'] at h
        exact ⟨_, _, _, h.1.symm⟩
  have hcongr : ∀ s r s' r', nbParse s r = nbParse s' r' →
      nbRunArgs n gates be ⟨s, r, en, ig, rnd, int⟩ = nbRunArgs n gates be ⟨s', r', en, ig, rnd, int⟩ := by
    intro s r s' r' h; simp only [nbRunArgs, h]
  refine ⟨hcongr _ _ _ _ (by decide), fun k => hcongr _ _ _ _ (by simp [nbParse, nbReturnTypes]), ?_, ?_, ?_, ?_, ?_, ?_, ?_⟩
  · rintro r (rfl | rfl) <;> exact hcongr _ _ _ _ (by decide)
  · rintro r (rfl | rfl) <;> exact hcongr _ _ _ _ (by decide)
  · intro k v rest h; obtain ⟨q, cr, c, rfl⟩ := hshape _ _ _ _ h; exact ⟨q, by simp [npReturn]⟩
  · intro k v rest h; obtain ⟨q, cr, c, rfl⟩ := hshape _ _ _ _ h; exact ⟨c, by simp [npReturn]⟩
  · intro k v rest h; obtain ⟨q, cr, c, rfl⟩ := hshape _ _ _ _ h; exact ⟨q, c, by simp [npReturn]⟩
  · intro k v rest h; obtain ⟨q, cr, c, rfl⟩ := hshape _ _ _ _ h; exact ⟨q, cr, c, by simp [npReturn]⟩
  · intro k r hr
    simp only [nbRunArgs, nbParse_eq, npParse_bad k r hr]

/-- A run with `returns="_inner_ctx"` and one with an unknown string. -/
example : (nbRunArgs 1 [] NbBackend.new ⟨none, some "_inner_ctx", true, false, fun _ => 0, none⟩).2 =
    .ok (.inner [1, 0] [0] [("0", 1)], fun _ => 0) ∧ "state" ∉ ["statevector", "shots", "statevector_and_shots", "_inner_ctx"] := by
  refine ⟨?_, by decide⟩
  rfl

end

end Blueqat
