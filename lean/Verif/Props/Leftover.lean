import Verif.Props.Circuit
import Verif.Numba
import Verif.Sympy
import Verif.Spec.Circuit

/-!
# C05: what becomes of a circuit after a rejected append
-/

set_option linter.unusedSimpArgs false
set_option linter.unusedVariables false

namespace Blueqat

open Spec

noncomputable section

theorem forEach_err {α β : Type} (f : α → Gen β) (xs : List α) (h : ∃ x ∈ xs, (f x).err.isSome) :
    (Gen.forEach f xs).err.isSome := by
  induction xs with
  | nil => simp at h
  | cons x xs ih =>
    rw [Gen.forEach, Gen.append]
    cases hx : (f x).err with
    | some e => simp only [hx]; rfl
    | none =>
      obtain ⟨y, hy, he⟩ := h
      rcases List.mem_cons.1 hy with rfl | hy
      · rw [hx] at he; simp at he
      · simp only [hx]
        exact ih ⟨y, hy, he⟩

theorem slicing_err {T : Targets} (hT : ¬ Plain T) (n : Int) : (slicing T n).err.isSome := by
  cases T with
  | one a =>
    have : a = .bad := by simpa [Plain] using hT
    subst this
    rfl
  | tup xs =>
    have hT' : ∃ x ∈ xs, ∀ a, x = .atom a → a = .bad := by simpa [Plain] using hT
    obtain ⟨x, hx, ha⟩ := hT'
    refine forEach_err _ _ ⟨x, hx, ?_⟩
    cases x with
    | atom a => rw [ha a rfl]; rfl
    | tup as => rfl

theorem forGen_err {σ : Type} {g : Gen Int} (h : g.err.isSome) (body : Int → σ → Except PyErr σ) (s : σ) :
    ∃ e, forGen g body s = .error e := by
  obtain ⟨e, he⟩ := Option.isSome_iff_exists.1 h
  rw [forGen]
  cases g.vals.foldlM (fun s t => body t s) s with
  | error e' => exact ⟨e', rfl⟩
  | ok s' => exact ⟨e, by simp only [he]⟩

theorem inPlaceLoop1_err {T : Targets} (hT : ¬ Plain T) (body : ℕ → Int → Arr → Except PyErr Arr) (n : ℕ) (s : NpCtx) :
    ∃ e, inPlaceLoop1 body n T s = .error e := by
  obtain ⟨e, he⟩ := forGen_err (slicing_err hT n) (body n) s.qubits
  exact ⟨e, by simp only [inPlaceLoop1, he]⟩

theorem swapLoop1_err {T : Targets} (hT : ¬ Plain T) (body : ℕ → Int → Bufs → Except PyErr Bufs) (n : ℕ) (s : NpCtx) :
    ∃ e, swapLoop1 body n T s = .error e := by
  obtain ⟨e, he⟩ := forGen_err (slicing_err hT n) (body n) (s.qubits, s.buf)
  exact ⟨e, by simp only [swapLoop1, he]⟩

theorem fallback_err {k : G1} (hk : k ≠ .i) {T : Targets} (hT : ¬ Plain T) (n : ℕ) :
    ∃ e, (Gate.g1 k T).fallback n = .error e := by
  obtain ⟨e, he⟩ := Option.isSome_iff_exists.1 (slicing_err hT n)
  have ht : (slicing T n).toList = .error e := by simp only [Gen.toList, he]
  cases hf : k.fallbackOn with
  | none => exact ⟨.notImplementedError, by cases k <;> first | exact absurd rfl hk | simp only [Gate.fallback, hf]⟩
  | some f => exact ⟨e, by cases k <;> first | exact absurd rfl hk | simp only [Gate.fallback, hf, ht]⟩

/-- A one-qubit gate other than the identity gate, a measurement or a reset on a subscript that is neither an index, nor a slice, nor a
flat tuple of these. -/
inductive Leftover : Gate → Prop
  | one (k : G1) (hk : k ≠ .i) {T : Targets} (hT : ¬ Plain T) : Leftover (.g1 k T)
  | measure {T : Targets} (hT : ¬ Plain T) : Leftover (.measure T)
  | reset {T : Targets} (hT : ¬ Plain T) : Leftover (.reset T)

theorem leftover_gate {g : Gate} (hg : Leftover g) (n : ℕ) (s : NpCtx) : ∃ e, npRunGate n g s = .error e := by
  have step : ∀ fuel, ∃ e, runGate (npAction n) n (fuel + 1) g s = .error e := by
    intro fuel
    cases hg with
    | @one k hk T hT =>
      cases ha : npAction n (.g1 k T) with
      | none =>
        obtain ⟨e, he⟩ := fallback_err hk hT n
        exact ⟨e, by simp only [runGate, ha, he]⟩
      | some a =>
        simp only [runGate, ha]
        cases k <;> simp only [npAction, Option.some.injEq, reduceCtorEq] at ha <;> subst ha <;>
          first
          | exact inPlaceLoop1_err hT _ n s
          | exact swapLoop1_err hT _ n s
    | measure hT =>
      obtain ⟨e, he⟩ := forGen_err (slicing_err hT n) (bodyMeasure n) s
      exact ⟨e, by simp only [runGate, npAction, npGateMeasure, he]⟩
    | reset hT =>
      obtain ⟨e, he⟩ := forGen_err (slicing_err hT n) (bodyReset n) s
      exact ⟨e, by simp only [runGate, npAction, npGateReset, he]⟩
  exact step 999

theorem leftover_gates {g : Gate} (hg : Leftover g) (n : ℕ) (pre post : List Gate) : ∀ (be : NpBackend) (s : NpCtx),
    ∃ be' e, npGates n (pre ++ g :: post) be s = (be', .error e) ∧ be'.cacheIdx ≤ be.cacheIdx + pre.length := by
  induction pre with
  | nil =>
    intro be s
    obtain ⟨e, he⟩ := leftover_gate hg n s
    exact ⟨be, e, by simp only [List.nil_append, npGates, he], by simp⟩
  | cons p pre ih =>
    intro be s
    simp only [List.cons_append, npGates]
    cases hp : npRunGate n p s with
    | error e => exact ⟨be, e, rfl, by simp; omega⟩
    | ok s' =>
      simp only
      split_ifs
      · obtain ⟨be', e, h1, h2⟩ := ih ⟨some s'.qubits, be.cacheIdx + 1⟩ s'
        exact ⟨be', e, h1, by simp at h2 ⊢; omega⟩
      · obtain ⟨be', e, h1, h2⟩ := ih be s'
        exact ⟨be', e, h1, by simp; omega⟩

/-- **C05, consequence.** Once an append like `c.x[1.5]` was rejected, the operation it left behind makes every run of the circuit
raise, whatever comes before or after it, as long as the backend's cache does not reach beyond it, which stays so. -/
theorem C05_leftover_raises {g : Gate} (hg : Leftover g) (n : ℕ) (pre post : List Gate) (shots : ℕ) (hs : shots ≠ 0)
    (be : NpBackend) (hb : be.cacheIdx < pre.length) (rnd : ℕ → ℝ) :
    ∃ be' e, npRun n (pre ++ g :: post) shots be rnd = (be', .error e) ∧ be'.cacheIdx < pre.length := by
  obtain ⟨k, rfl⟩ := Nat.exists_eq_succ_of_ne_zero hs
  have hc : (be.clearIfInvalid n).cacheIdx < pre.length := by
    unfold NpBackend.clearIfInvalid
    split
    · simp; omega
    · split_ifs
      · simp; omega
      · exact hb
  generalize hbdef : be.clearIfInvalid n = b at hc
  rw [npRun, hbdef, Nat.succ_eq_add_one, npShots]
  cases hp : npPrepare n b.cache (npNewCtx n rnd) with
  | error e => exact ⟨b, e, rfl, hc⟩
  | ok s =>
    have hk : (b.cacheIdx + 1).toNat ≤ pre.length := by omega
    obtain ⟨be', e, h1, h2⟩ := leftover_gates hg n (pre.drop (b.cacheIdx + 1).toNat) post b s
    rw [List.drop_append_of_le_length hk]
    simp only [h1]
    refine ⟨be', e, rfl, ?_⟩
    rw [List.length_drop] at h2
    omega

/-- The hypotheses can be met: `c.h[0]`, then the rejected `c.x[1.5]`, then `c.cx[0, 1]`. -/
example (rnd : ℕ → ℝ) : ∃ be e, npRun 2 [.g1 .h (.one (.int 0)), .g1 .x (.one .bad), .g2 .cx (.ofPair 0 1)] 1 NpBackend.new rnd =
    (be, .error e) := by
  obtain ⟨be, e, h, -⟩ := C05_leftover_raises (.one .x (by simp) (T := .one .bad) (by simp [Plain])) 2 [.g1 .h (.one (.int 0))]
    [.g2 .cx (.ofPair 0 1)] 1 (by simp) NpBackend.new (by simp [NpBackend.new]) rnd
  exact ⟨be, e, h⟩

/-- The same on the numba backend: the operation raises in every state. -/
theorem C05_leftover_numba {g : Gate} (hg : Leftover g) (n : ℕ) (s : NbCtx) : ∃ e, nbRunGate n g s = .error e := by
  have step : ∀ fuel, ∃ e, runGate (nbAction n) n (fuel + 1) g s = .error e := by
    intro fuel
    cases hg with
    | @one k hk T hT =>
      cases hb : nbBody1 k with
      | none =>
        obtain ⟨e, he⟩ := fallback_err hk hT n
        exact ⟨e, by simp only [runGate, nbAction, nbArr, hb, Option.map_none, he]⟩
      | some b =>
        obtain ⟨e, he⟩ := forGen_err (slicing_err hT n) (nbKernel1 b n) s.qubits
        exact ⟨e, by simp only [runGate, nbAction, nbArr, hb, Option.map_some, he]; rfl⟩
    | measure hT =>
      obtain ⟨e, he⟩ := forGen_err (slicing_err hT n) (nbMeasureBody n) s
      exact ⟨e, by simp only [runGate, nbAction, he]⟩
    | reset hT =>
      obtain ⟨e, he⟩ := forGen_err (slicing_err hT n) (nbResetBody n) s
      exact ⟨e, by simp only [runGate, nbAction, he]⟩
  exact step 999

/-- The same for `to_unitary()`, which leaves out measurements and resets. -/
theorem C05_leftover_unitary (n : ℕ) (pre post : List Gate) (k : G1) (hk : k ≠ .i) {T : Targets} (hT : ¬ Plain T) (ig : Bool) :
    ∃ e, syRun n (pre ++ .g1 k T :: post) ig = .error e := by
  have one : ∀ M, ∃ e, runGate (syAction n) n recursionLimit (.g1 k T) M = .error e := by
    intro M
    have step : ∀ fuel, ∃ e, runGate (syAction n) n (fuel + 1) (.g1 k T) M = .error e := by
      intro fuel
      cases hb : sySympyGate k with
      | none =>
        obtain ⟨e, he⟩ := fallback_err hk hT n
        exact ⟨e, by simp only [runGate, syAction, hb, Option.map_none, he]⟩
      | some G =>
        obtain ⟨e, he⟩ := Option.isSome_iff_exists.1 (slicing_err hT n)
        have ht : (slicing T n).toList = .error e := by simp only [Gen.toList, he]
        exact ⟨e, by simp only [runGate, syAction, hb, Option.map_some, syGate1, ht, bind, Except.bind]⟩
    exact step 999
  have all : ∀ (pre : List Gate) (M : SMat), ∃ e, runGates (syAction n) n recursionLimit (pre ++ .g1 k T :: post) M = .error e := by
    intro pre
    induction pre with
    | nil =>
      intro M
      obtain ⟨e, he⟩ := one M
      exact ⟨e, by simp only [runGates, List.nil_append, List.foldlM_cons, he, bind, Except.bind]⟩
    | cons p pre ih =>
      intro M
      cases hp : runGate (syAction n) n recursionLimit p M with
      | error e => exact ⟨e, by simp only [runGates, List.cons_append, List.foldlM_cons, hp, bind, Except.bind]⟩
      | ok M' =>
        obtain ⟨e, he⟩ := ih M'
        exact ⟨e, by rw [← he]; simp only [runGates, List.cons_append, List.foldlM_cons, hp, bind, Except.bind]⟩
  obtain ⟨e, he⟩ := all pre (SMat.eye (2 ^ n))
  exact ⟨e, by simp only [syRun, he, bind, Except.bind]⟩

/-- **C05, consequence.** The operation that a rejected two-qubit gate such as `c.cx[(0, 1), (2, 3)]` leaves behind is executed by
later runs, on 4 qubits or more: it denotes the gates on the pairs 0, 2 and 1, 3. -/
theorem C05_leftover_runs (n : ℕ) (k : G2) (hn : 4 ≤ n) :
    getMaximumIndex (.tup [.tup [.int 0, .int 1], .tup [.int 2, .int 3]]) = .error .attributeError ∧
    GateDenotes n (.g2 k (.tup [.tup [.int 0, .int 1], .tup [.int 2, .int 3]])) [.two k 0 2, .two k 1 3] ∧
    ∀ e ∈ ([.two k 0 2, .two k 1 3] : List Elem), e.Valid n := by
  refine ⟨rfl, ⟨[(0, 2), (1, 3)], ⟨.tup [.int 0, .int 1], .tup [.int 2, .int 3], [0, 1], [2, 3], rfl, ?_, ?_, rfl, rfl, ?_⟩, rfl⟩, ?_⟩
  · exact ⟨[0], [1], by simp [AtomDenotes, pyIndex], ⟨[1], [], by simp [AtomDenotes, pyIndex], rfl, rfl⟩, rfl⟩
  · exact ⟨[2], [3], by simp [AtomDenotes, pyIndex], ⟨[3], [], by simp [AtomDenotes, pyIndex], rfl, rfl⟩, rfl⟩
  · simp
  · intro e he
    simp only [List.mem_cons, List.not_mem_nil, or_false] at he
    rcases he with rfl | rfl <;> simp [Elem.Valid] <;> omega

end

end Blueqat
