import Verif.Props.Runs
import Verif.Props.Qasm
import Verif.Props.SympyOnce

/-!
# C111: which circuits have OpenQASM text and a matrix
-/

set_option linter.unusedSimpArgs false
set_option linter.unusedVariables false

namespace Blueqat

open Spec

noncomputable section

variable (fmt : ℝ → String)

theorem runGates_each {σ : Type} {act : Gate → Option (σ → Except PyErr σ)} {n fuel : ℕ} (gates : List Gate) :
    ∀ (s s' : σ), runGates act n fuel gates s = .ok s' → ∀ g ∈ gates, ∃ a b, runGate act n fuel g a = .ok b := by
  induction gates with
  | nil => intro s s' h g hg; simp at hg
  | cons p gates ih =>
    intro s s' h g hg
    simp only [runGates, List.foldlM_cons] at h
    cases hp : runGate act n fuel p s with
    | error e => rw [hp] at h; cases h
    | ok s1 =>
      rw [hp] at h
      rcases List.mem_cons.1 hg with rfl | hg
      · exact ⟨s, s1, hp⟩
      · exact ih s1 s' h g hg

/-- On every backend: a gate that runs has a readable subscript, if this is so for the backend's own methods and the backend has a
method for `i` or the gate is another one. -/
theorem act_reads {σ : Type} {act : Gate → Option (σ → Except PyErr σ)} {n : ℕ} {g : Gate}
    (hnat : ∀ f a b, act g = some f → f a = .ok b → Reads n g) (hi : ∀ T, g = .g1 .i T → act g ≠ none) {a b : σ}
    (h : runGate act n recursionLimit g a = .ok b) : Reads n g := by
  cases ha : act g with
  | some f => exact hnat f a b ha (by rw [← runGate_native ha]; exact h)
  | none =>
    have hfb : ∃ gs, g.fallback n = .ok gs := by
      cases hg : g.fallback n with
      | ok gs => exact ⟨gs, rfl⟩
      | error e =>
        have step : ∀ fuel, runGate act n (fuel + 1) g a = .error e := by
          intro fuel; simp only [runGate, ha, hg]
        have := step 999
        change runGate act n recursionLimit g a = _ at this
        rw [h] at this; cases this
    obtain ⟨gs, hgs⟩ := hfb
    cases g with
    | g1 k T =>
      have hk : k ≠ .i := by rintro rfl; exact hi T rfl ha
      show (slicing T n).err = none
      by_contra hne
      obtain ⟨e, he⟩ := Option.ne_none_iff_exists'.1 hne
      have ht : (slicing T n).toList = .error e := by simp only [Gen.toList, he]
      cases hf : k.fallbackOn with
      | none => cases k <;> first | exact absurd rfl hk | simp [Gate.fallback, hf] at hgs
      | some f => cases k <;> first | exact absurd rfl hk | simp [Gate.fallback, hf, ht] at hgs
    | g2 k T =>
      cases hq : qubitPairs T n with
      | ok ps => exact ⟨ps, hq⟩
      | error e =>
        cases hf : k.fallbackOn with
        | none => simp [Gate.fallback, hf] at hgs
        | some f => simp [Gate.fallback, hf, hq] at hgs
    | g3 k T => trivial
    | measure T => simp [Gate.fallback] at hgs
    | reset T => simp [Gate.fallback] at hgs

theorem forGen_reads {σ : Type} {T : Targets} {n : ℕ} {body : ℤ → σ → Except PyErr σ} {a b : σ}
    (h : forGen (slicing T n) body a = .ok b) : (slicing T n).err = none := by
  by_contra hne
  obtain ⟨e, he⟩ := forGen_err (g := slicing T n) (Option.isSome_iff_ne_none.2 hne) body a
  rw [he] at h; cases h

theorem forPairs_reads {σ : Type} {T : Targets} {n : ℕ} {body : ℤ → ℤ → σ → Except PyErr σ} {a b : σ}
    (h : forPairs (qubitPairs T n) body a = .ok b) : ∃ ps, qubitPairs T n = .ok ps := by
  cases hq : qubitPairs T n with
  | error e => rw [hq] at h; cases h
  | ok ps => exact ⟨ps, rfl⟩

/-- C111 for OpenQASM: a circuit of one- and two-qubit gates, measurements and resets with written indices from `-n` to `n - 1` has a
text exactly if its gates stand for operations on qubits of the register. -/
theorem C111_qasm_partial (n : ℕ) (gates : List Gate) (h3 : ∀ g ∈ gates, ∀ k T, g ≠ .g3 k T)
    (hin : ∀ g ∈ gates, WrittenInRange n g) (prologue : Bool) :
    (∃ text, qaRun fmt n gates prologue = .ok text) ↔ ∃ es, GatesDenote n gates es ∧ ∀ e ∈ es, e.Valid n := by
  constructor
  · rintro ⟨text, ht⟩
    refine gates_denote gates fun g hg => ?_
    cases hr : runGates (qaAction fmt n) n recursionLimit gates (if prologue then qaPrologue n else []) with
    | error e => simp only [qaRun, hr] at ht; cases ht
    | ok lines =>
      obtain ⟨a, b, hab⟩ := runGates_each gates _ _ hr g hg
      refine reads_denotes (h3 g hg) (resolvesInside_of_written n g (hin g hg)) (act_reads ?_ ?_ hab)
      · intro f a b hf hfa
        cases g with
        | g1 k T =>
          simp only [qaAction, Option.map_eq_some_iff] at hf
          obtain ⟨head, -, rfl⟩ := hf
          exact forGen_reads hfa
        | g2 k T =>
          simp only [qaAction, Option.map_eq_some_iff] at hf
          obtain ⟨head, -, rfl⟩ := hf
          exact forPairs_reads hfa
        | g3 k T => trivial
        | measure T =>
          simp only [qaAction, Option.some.injEq] at hf
          subst hf
          exact forGen_reads hfa
        | reset T =>
          simp only [qaAction, Option.some.injEq] at hf
          subst hf
          exact forGen_reads hfa
      · rintro T rfl; simp [qaAction, qaHead1]
  · rintro ⟨es, hd, hv⟩
    obtain ⟨bs, -, -, h1, h2⟩ := C28_well_formed_partial fmt n gates es hd hv (fun T hT => h3 _ hT _ _ rfl)
    cases prologue with
    | true => exact ⟨_, h1⟩
    | false => exact ⟨_, h2⟩

theorem once_exists {n : ℕ} (gates : List Gate) : ∀ es, GatesDenote n gates es → ∃ os, GatesOnce n gates os := by
  classical
  induction gates with
  | nil => intro es _; exact ⟨[], rfl⟩
  | cons g gates ih =>
    rintro es ⟨e1, e2, h1, h2, -⟩
    obtain ⟨o2, ho⟩ := ih e2 h2
    have : ∃ o1, GateOnce n g o1 := by
      cases g with
      | g1 k T =>
        obtain ⟨L, hL, -⟩ := h1
        by_cases hk : SympyOwn k
        · exact ⟨_, L, hL, .inl ⟨hk, rfl⟩⟩
        · exact ⟨_, L, hL, .inr ⟨hk, rfl⟩⟩
      | g2 k T => exact ⟨e1, h1⟩
      | g3 k T => exact ⟨e1, h1⟩
      | measure T => exact ⟨e1, h1⟩
      | reset T => exact ⟨e1, h1⟩
    obtain ⟨o1, h⟩ := this
    exact ⟨o1 ++ o2, o1, o2, h, ho, rfl⟩

/-- C111 for `to_unitary()`: a circuit of one- and two-qubit gates other than `i` on at least one qubit, with written indices from `-n`
to `n - 1`, has a matrix exactly if its gates stand for operations on qubits of the register. -/
theorem C111_unitary_partial (n : ℕ) (h0 : 0 < n) (gates : List Gate) (hi : ∀ g ∈ gates, ∀ T, g ≠ .g1 .i T)
    (h3 : ∀ g ∈ gates, ∀ k T, g ≠ .g3 k T) (hu : ∀ g ∈ gates, ¬ NonUnitary g) (hin : ∀ g ∈ gates, WrittenInRange n g) (ig : Bool) :
    (∃ M, syRun n gates ig = .ok M) ↔ ∃ es, GatesDenote n gates es ∧ ∀ e ∈ es, e.Valid n := by
  have hig : (∃ M, syRun n gates ig = .ok M) ↔ ∃ M, runGates (syAction n) n recursionLimit gates (SMat.eye (2 ^ n)) = .ok M := by
    simp only [syRun, bind, Except.bind]
    cases hr : runGates (syAction n) n recursionLimit gates (SMat.eye (2 ^ n)) with
    | error e => simp
    | ok M => exact ⟨fun _ => ⟨M, rfl⟩, fun _ => ⟨_, rfl⟩⟩
  rw [hig]
  constructor
  · rintro ⟨M, hr⟩
    refine gates_denote gates fun g hg => ?_
    obtain ⟨a, b, hab⟩ := runGates_each gates _ _ hr g hg
    refine reads_denotes (h3 g hg) (resolvesInside_of_written n g (hin g hg)) (act_reads ?_ ?_ hab)
    · intro f a b hf hfa
      cases g with
      | g1 k T =>
        simp only [syAction, Option.map_eq_some_iff] at hf
        obtain ⟨G, -, rfl⟩ := hf
        show (slicing T n).err = none
        by_contra hne
        obtain ⟨e, he⟩ := Option.ne_none_iff_exists'.1 hne
        have ht : (slicing T n).toList = .error e := by simp only [Gen.toList, he]
        simp only [syGate1, ht, bind, Except.bind] at hfa
        cases hfa
      | g2 k T =>
        cases k <;> simp only [syAction, Option.some.injEq, reduceCtorEq] at hf <;> subst hf <;> exact forPairs_reads hfa
      | g3 k T => trivial
      | measure T => exact absurd trivial (hu _ hg)
      | reset T => exact absurd trivial (hu _ hg)
    · intro T hT; exact absurd hT (hi g hg T)
  · rintro ⟨es, hd, hv⟩
    obtain ⟨os, ho⟩ := once_exists gates es hd
    obtain ⟨⟨M, hM, -⟩, -⟩ := C24_exact n h0 gates es os hd ho hv (elems_unitary hd hu) (fun T hT => h3 _ hT _ _ rfl)
    have := (hig.1 (by
      cases ig with
      | false => exact ⟨M, hM⟩
      | true =>
        simp only [syRun, bind, Except.bind] at hM ⊢
        cases hr : runGates (syAction n) n recursionLimit gates (SMat.eye (2 ^ n)) with
        | error e => rw [hr] at hM; cases hM
        | ok M' => exact ⟨_, rfl⟩))
    exact this

/-- So, for such circuits, numpy, numba, `to_qasm` and `to_unitary` accept the same. -/
theorem C111_same_partial (n : ℕ) (h0 : 0 < n) (h64 : n ≤ 64) (gates : List Gate) (hi : ∀ g ∈ gates, ∀ T, g ≠ .g1 .i T)
    (h3 : ∀ g ∈ gates, ∀ k T, g ≠ .g3 k T) (hu : ∀ g ∈ gates, ¬ NonUnitary g) (hin : ∀ g ∈ gates, WrittenInRange n g)
    (rnd : ℕ → ℝ) (hrnd : InUnit rnd) :
    ((∃ r, freshRun n gates ⟨none, none, false, rnd⟩ = .ok r) ↔
      ∃ r, (nbRunArgs n gates NbBackend.new ⟨none, none, true, false, rnd, none⟩).2 = .ok r) ∧
    ((∃ r, freshRun n gates ⟨none, none, false, rnd⟩ = .ok r) ↔ ∃ text, qaRun fmt n gates true = .ok text) ∧
    ((∃ r, freshRun n gates ⟨none, none, false, rnd⟩ = .ok r) ↔ ∃ M, syRun n gates false = .ok M) := by
  rw [C111_inside_partial n gates hi h3 hin rnd hrnd, C111_qasm_partial fmt n gates h3 hin true,
    C111_unitary_partial n h0 gates hi h3 hu hin false,
    C111_numba_partial n h64 gates hi h3 hin NbBackend.new (nbCacheInv_new gates) true rnd hrnd]
  exact ⟨Iff.rfl, Iff.rfl, Iff.rfl⟩

/-- `h[0]`, `cx[0, -1]` and `tdg[:]` on three qubits, and a `cx[0, 0]` that none of the four accepts. -/
example : ∀ g ∈ [Gate.g1 .h (.one (.int 0)), .g2 .cx (.tup [.atom (.int 0), .atom (.int (-1))]), .g1 .tdg (.one (.slice none none none)),
    .g2 .cx (.tup [.atom (.int 0), .atom (.int 0)])],
    (∀ T, g ≠ .g1 .i T) ∧ (∀ k T, g ≠ .g3 k T) ∧ ¬ NonUnitary g ∧ WrittenInRange 3 g := by
  simp [WrittenInRange, Gate.targets, intsOf, atomsOf, lowest, NonUnitary]
  intro v; omega

end

end Blueqat
