import Verif.NpFloatCache
import Verif.NbFloatCache
import Verif.WorldInv
import Verif.Spec.RunFloat
import Verif.Props.Registry

/-!
# C96: the caches in machine arithmetic, and the argument `dtype`
-/

set_option linter.unusedSimpArgs false
set_option linter.unusedVariables false

namespace Blueqat

open Spec

/-! ## numpy -/

theorem flRunPhase_spec (P : PhaseOps) (F : FloatOps) (n : ℕ) (gates : List Gate) (be : NpBackend)
    (h : FlNp.CacheInv F gates be) (a : RunArgs) :
    FlNp.CacheInv F gates (flRunPhase P F n gates be a).1 ∧
      (flRunPhase P F n gates be a).2 = (flRunPhase P F n gates NpBackend.new a).2 := by
  have hnew : FlNp.CacheInv F gates NpBackend.new := FlNp.cacheInv_of_ok (FlNp.cacheOK_new 0 gates)
  simp only [flRunPhase]
  cases hp : npParse a.shots a.returns with
  | error e => exact ⟨h, rfl⟩
  | ok p =>
    obtain ⟨s, ret⟩ := p
    have h1 := FlNp.npRun_spec n gates s.toNat be h a.rnd
    have h2 := FlNp.npRun_spec n gates s.toNat NpBackend.new hnew a.rnd
    rw [← h2.2] at h1
    rcases hr1 : flRun F n gates s.toNat be a.rnd with ⟨b1, r1⟩
    rcases hr2 : flRun F n gates s.toNat NpBackend.new a.rnd with ⟨b2, r2⟩
    rw [hr1, hr2] at h1
    obtain ⟨hc, he⟩ := h1
    simp only at hc he
    cases r1 with
    | error e1 =>
      cases r2 with
      | error e2 =>
        simp only [Except.map, Except.error.injEq] at he
        subst he
        simp only [hr1, hr2]; exact ⟨hc, trivial⟩
      | ok x2 => simp [Except.map] at he
    | ok x1 =>
      cases r2 with
      | error e2 => simp [Except.map] at he
      | ok x2 =>
        obtain ⟨c1, k1⟩ := x1
        obtain ⟨c2, k2⟩ := x2
        simp only [Except.map, Except.ok.injEq, Prod.mk.injEq, NpCtx.core, PSt.mk.injEq] at he
        obtain ⟨⟨e1, e2, e3⟩, e4⟩ := he
        simp only [hr1, hr2, e1, e2, e3, e4]
        exact ⟨hc, trivial⟩

section
variable {V M C B R : Type}

theorem floatCache_rules (P : PhaseOps) (F : FloatOps) (other : Kit C B RunArgs R) (isAttr : String → Bool) :
    InvRules (V := V) (M := M) (besideClass (flKit P F) other) isAttr (fun _ _ => True)
      (fun ops b => match b with | .inl be => FlNp.CacheInv F ops be | .inr _ => True)
      (fun _ c => NoDaggerCopy c) where
  new := fun _ => trivial
  newFrom := fun _ _ _ _ => trivial
  append := by intro w i g n ops _ _ _ _ _; cases getMaximumIndex g.targets <;> trivial
  add := fun _ _ _ _ _ _ => trivial
  dagger := fun _ _ _ _ _ _ => trivial
  make := by
    intro ops c
    cases c with
    | inl c => exact FlNp.cacheInv_of_ok (FlNp.cacheOK_new 0 ops)
    | inr c => trivial
  ext := by
    intro a l b h
    cases b with
    | inl be => exact fun n => FlNp.cacheOK_append l (h n)
    | inr b => trivial
  run := by
    intro w c ops n b a _ _ h
    cases b with
    | inl be => exact (flRunPhase_spec P F n ops be h a).1
    | inr b => trivial
  makeCache := by
    intro w c ops n b a _ _ h
    cases b with
    | inl be => exact (flRunPhase_spec P F n ops be h ⟨none, none, false, a.rnd⟩).1
    | inr b => trivial
  daggerQ := by intro w i ign cd ops l b h; simp [NoDaggerCopy] at h

/-- C96, numpy: whatever the floating-point arithmetic `F`, `P` is, after any history (appends, runs that succeed or
raise, `make_cache`, copies, concatenations, daggers without `copy_backends`, registrations, other backends, ...) a run
of a circuit on its own numpy backend returns bit for bit what the same run on a new backend object returns, errors
included, and leaves the same random numbers unused. -/
theorem C96_numpy_cache (P : PhaseOps) (F : FloatOps) (other : Kit C B RunArgs R) (isAttr : String → Bool)
    (b : NpBackend ⊕ B) (reg : Registry V M (Unit ⊕ C)) (h : List (Cmd V M (Unit ⊕ C) RunArgs))
    (hh : ∀ c ∈ h, NoDaggerCopy c) (j : ℕ) (explicit : Option String) (a : RunArgs) :
    let w := (World.start b reg).exec (besideClass (flKit P F) other) isAttr h
    j < w.nCircs → OwnClass w j (inForce explicit (view w j).dflt w.reg.dflt) →
      (w.step (besideClass (flKit P F) other) isAttr (.run j (selOf explicit) a)).2 =
        (freshFloat P F (view w j).n (view w j).ops a).map (fun r => Out.result (.inl r)) := by
  intro w hj hown
  have hok : ∀ (h : List (Cmd V M (Unit ⊕ C) RunArgs)) (w0 : World V M (Unit ⊕ C) (NpBackend ⊕ B)),
      (∀ c ∈ h, NoDaggerCopy c) →
        OkHist (besideClass (flKit P F) other) isAttr (fun _ c => NoDaggerCopy c) w0 h := by
    intro h
    induction h with
    | nil => intro _ _; trivial
    | cons c h ih => intro w0 hc; exact ⟨hc c (by simp), ih _ (fun c hc' => hc c (by simp [hc']))⟩
  have hall := allCircs_exec (floatCache_rules (V := V) (M := M) P F other isAttr) h _ (WF_start b reg)
    (allCircs_start b reg) (hok h _ hh)
  have hsel := C55_selection (besideClass (flKit P F) other) isAttr w j hj explicit a
  simp only at hsel
  have hmap : ∀ r : Except PyErr (NpVal × (ℕ → ℝ)), (Except.map Out.result (r.map Sum.inl) :
      Except PyErr (Out ((NpVal × (ℕ → ℝ)) ⊕ R))) = r.map (fun r => Out.result (.inl r)) := by
    intro r; cases r <;> rfl
  rcases hown with ⟨be, hbe⟩ | ⟨hn, hc⟩
  · rw [hsel.1 _ hbe]
    have hinv := (hall j hj).2 _ (PyDict.get_mem hbe)
    simp only [besideClass]
    rw [hmap]
    show Except.map _ (flRunPhase P F _ _ be a).2 = _
    rw [(flRunPhase_spec P F _ _ be hinv a).2]; rfl
  · rw [hsel.2.1 hn _ hc]
    simp only [besideClass]
    rw [hmap]; rfl

end

/-! ## numba -/

section
variable {D : Type} [DecidableEq D] (P : D → PhaseOps) (K : D → NbFloat)

/-- The invariant kept across changes of the register size and of the dtype. -/
def TypedInv (gates : List Gate) (be : NbTyped D) : Prop :=
  ∀ n d, FlNb.NbCacheOK (K d) n gates (be.clearIfInvalid n d).untyped

variable {K}

theorem typedInv_of_ok {n : ℕ} {d : D} {gates : List Gate} {be : NbBackend} (h : FlNb.NbCacheOK (K d) n gates be) :
    TypedInv K gates (be.typed d) := by
  intro m d'
  have hempty : FlNb.NbCacheOK (K d') m gates ⟨none, -1⟩ := .empty rfl rfl
  cases hc : be.cache with
  | none => simpa [NbTyped.clearIfInvalid, NbBackend.typed, hc, NbTyped.untyped] using hempty
  | some q =>
    have hq := h.basic.2.2 q hc
    by_cases hm : m = n
    · subst hm
      by_cases hd : d = d'
      · subst hd
        have : ((be.typed d).clearIfInvalid m d).untyped = be := by
          obtain ⟨c, i⟩ := be
          simp only at hc
          subst hc
          simp [NbTyped.clearIfInvalid, NbBackend.typed, hq, NbTyped.untyped]
        rw [this]; exact h
      · simpa [NbTyped.clearIfInvalid, NbBackend.typed, hc, hq, hd, NbTyped.untyped] using hempty
    · have hne : (2 : ℕ) ^ n ≠ 2 ^ m := fun h => hm (Nat.pow_right_injective le_rfl h).symm
      simpa [NbTyped.clearIfInvalid, NbBackend.typed, hc, hq, hne, NbTyped.untyped] using hempty

theorem typedInv_new (gates : List Gate) : TypedInv K gates NbTyped.new := fun _ _ => .empty rfl rfl

variable (K)

/-- What an uninterrupted run returns: the parsed arguments applied to the shots without a cache. -/
noncomputable def typedPlainRun (n : ℕ) (gates : List Gate) (a : NbArgs) (d : D) : Except PyErr (NpVal × (ℕ → ℝ)) :=
  match nbParse a.shots a.returns with
  | .error e => .error e
  | .ok (shots, returns) =>
    (FlNb.nbPlainShots (K d) n gates shots.toNat ⟨List.replicate (2 ^ n) 0, [], a.rnd⟩ []).map fun r =>
      (npReturn returns (if a.ignoreGlobal then flIgnoreGlobal (P d) r.1.qubits else r.1.qubits) r.1.cregs r.2, r.1.rnd)

theorem nbTypedRun_spec (n : ℕ) (gates : List Gate) (be : NbTyped D) (h : TypedInv K gates be) (a : NbArgs)
    (ha : a.interrupt = none) (d : D) : TypedInv K gates (nbTypedRun P K n gates be a d).1 ∧
      (nbTypedRun P K n gates be a d).2 = typedPlainRun P K n gates a d := by
  simp only [nbTypedRun, typedPlainRun, ha]
  cases hp : nbParse a.shots a.returns with
  | error e => exact ⟨h, rfl⟩
  | ok p =>
    obtain ⟨s, ret⟩ := p
    have hc : FlNb.NbCacheOK (K d) n gates (if a.enableCache then be.clearIfInvalid n d else ⟨none, -1⟩).untyped := by
      cases a.enableCache with
      | true => exact h n d
      | false => exact .empty rfl rfl
    have h1 := FlNb.nbShots_spec n gates s.toNat _ ⟨List.replicate (2 ^ n) 0, [], a.rnd⟩ a.enableCache [] (by simp) hc
    simp only
    rcases hr : flNbShots (K d) n gates s.toNat (if a.enableCache then be.clearIfInvalid n d else ⟨none, -1⟩).untyped
      ⟨List.replicate (2 ^ n) 0, [], a.rnd⟩ a.enableCache none [] with ⟨b1, r1⟩
    rw [hr] at h1
    obtain ⟨h2, h3⟩ := h1
    simp only at h2 h3
    rw [← h3]
    cases r1 with
    | error e => exact ⟨typedInv_of_ok h2, rfl⟩
    | ok x => exact ⟨typedInv_of_ok h2, rfl⟩

variable {V M C B R : Type}

omit [DecidableEq D] in
theorem noInterruptTyped_args {c : Cmd V M C (NbArgs × Option D)} {a : NbArgs × Option D} (h : NoInterruptTyped c)
    (ha : c.args = some a) : a.1.interrupt = none := by
  cases c <;> simp only [Cmd.args, Option.some.injEq, reduceCtorEq] at ha <;> subst ha <;> exact h

theorem typedCache_rules (d0 : D) (other : Kit C B (NbArgs × Option D) R) (isAttr : String → Bool) :
    InvRules (V := V) (M := M) (besideClass (nbTypedKit P K d0) other) isAttr (fun _ _ => True)
      (fun ops b => match b with | .inl be => TypedInv K ops be | .inr _ => True)
      (fun _ c => NoDaggerCopy c ∧ NoInterruptTyped c) where
  new := fun _ => trivial
  newFrom := fun _ _ _ _ => trivial
  append := by intro w i g n ops _ _ _ _ _; cases getMaximumIndex g.targets <;> trivial
  add := fun _ _ _ _ _ _ => trivial
  dagger := fun _ _ _ _ _ _ => trivial
  make := by
    intro ops c
    cases c with
    | inl c => exact typedInv_new ops
    | inr c => trivial
  ext := by
    intro a l b h
    cases b with
    | inl be => exact fun n d => FlNb.nbCacheOK_append l (h n d)
    | inr b => trivial
  run := by
    intro w c ops n b a hc ha h
    cases b with
    | inl be => exact (nbTypedRun_spec P K n ops be h a.1 (noInterruptTyped_args hc.2 ha) _).1
    | inr b => trivial
  makeCache := by
    intro w c ops n b a hc ha h
    cases b with
    | inl be =>
      exact (nbTypedRun_spec P K n ops be h ⟨none, none, true, false, a.1.rnd, a.1.interrupt⟩
        (show a.1.interrupt = none from noInterruptTyped_args hc.2 ha) d0).1
    | inr b => trivial
  daggerQ := by intro w i ign cd ops l b h; simp [NoDaggerCopy] at h

/-- C96, numba: whatever the compiled kernels compute for each dtype, after any history of appends, uninterrupted runs
with whatever dtype, with the cache enabled or not, that succeed or raise, `make_cache`, copies, concatenations, daggers
without `copy_backends`, registrations and other backends, a run of a circuit on its own numba backend with dtype `d`
(the default if none is given) returns bit for bit what a run of the same operations with dtype `d` on a new object with
`enable_cache=False` returns, errors included, and leaves the same random numbers unused. -/
theorem C96_numba_cache (d0 : D) (other : Kit C B (NbArgs × Option D) R) (isAttr : String → Bool) (b : NbTyped D ⊕ B)
    (reg : Registry V M (Unit ⊕ C)) (h : List (Cmd V M (Unit ⊕ C) (NbArgs × Option D)))
    (hh : ∀ c ∈ h, NoDaggerCopy c ∧ NoInterruptTyped c)
    (j : ℕ) (explicit : Option String) (a : NbArgs) (ha : a.interrupt = none) (dtype : Option D) :
    let w := (World.start b reg).exec (besideClass (nbTypedKit P K d0) other) isAttr h
    j < w.nCircs → OwnClass w j (inForce explicit (view w j).dflt w.reg.dflt) →
      (w.step (besideClass (nbTypedKit P K d0) other) isAttr (.run j (selOf explicit) (a, dtype))).2 =
        (freshTyped P K (view w j).n (view w j).ops a (dtype.getD d0)).map (fun r => Out.result (.inl r)) := by
  intro w hj hown
  have hok : ∀ (h : List (Cmd V M (Unit ⊕ C) (NbArgs × Option D))) (w0 : World V M (Unit ⊕ C) (NbTyped D ⊕ B)),
      (∀ c ∈ h, NoDaggerCopy c ∧ NoInterruptTyped c) →
        OkHist (besideClass (nbTypedKit P K d0) other) isAttr (fun _ c => NoDaggerCopy c ∧ NoInterruptTyped c) w0 h := by
    intro h
    induction h with
    | nil => intro _ _; trivial
    | cons c h ih => intro w0 hc; exact ⟨hc c (by simp), ih _ (fun c hc' => hc c (by simp [hc']))⟩
  have hall := allCircs_exec (typedCache_rules (V := V) (M := M) P K d0 other isAttr) h _ (WF_start b reg)
    (allCircs_start b reg) (hok h _ hh)
  have hsel := C55_selection (besideClass (nbTypedKit P K d0) other) isAttr w j hj explicit (a, dtype)
  simp only at hsel
  have hmap : ∀ r : Except PyErr (NpVal × (ℕ → ℝ)), (Except.map Out.result (r.map Sum.inl) :
      Except PyErr (Out ((NpVal × (ℕ → ℝ)) ⊕ R))) = r.map (fun r => Out.result (.inl r)) := by
    intro r; cases r <;> rfl
  have hfresh : ∀ n ops d, freshTyped P K n ops a d = typedPlainRun P K n ops a d := by
    intro n ops d
    exact (nbTypedRun_spec P K n ops NbTyped.new (typedInv_new ops) { a with enableCache := false } ha d).2
  rw [hfresh]
  rcases hown with ⟨be, hbe⟩ | ⟨hn, hc⟩
  · rw [hsel.1 _ hbe]
    have hinv := (hall j hj).2 _ (PyDict.get_mem hbe)
    simp only [besideClass]
    rw [hmap]
    show Except.map _ (nbTypedRun P K _ _ be a (dtype.getD d0)).2 = _
    rw [(nbTypedRun_spec P K _ _ be hinv a ha _).2]
  · rw [hsel.2.1 hn _ hc]
    simp only [besideClass]
    rw [hmap]
    show Except.map _ (nbTypedRun P K _ _ NbTyped.new a (dtype.getD d0)).2 = _
    rw [(nbTypedRun_spec P K _ _ NbTyped.new (typedInv_new _) a ha _).2]

end

/-! ## Concrete cases -/

/-- No other backend. -/
def noKitF (A : Type) : Kit Empty Empty A Empty := ⟨fun c => c, fun b => b, fun b => (nomatch b), fun b => (nomatch b)⟩

/-- Module tables with one backend. -/
def oneReg : Registry Unit Unit (Unit ⊕ Empty) := ⟨[], [], [("it", .inl ())], "it"⟩

/-- No run arguments. -/
def noArgsF : RunArgs := ⟨none, none, false, fun _ => 0⟩

/-- An arithmetic in which every product is `z`. -/
noncomputable def oddOps (z : ℂ) : FloatOps := { FloatOps.exact with mul := fun _ _ => z }

theorem float_x (z : ℂ) : flRunPhase .exact (oddOps z) 1 [on1 .x 0] NpBackend.new noArgsF =
    (⟨some [0, 1], 0⟩, .ok (.statevector [0, 1], fun _ => 0)) := by rfl

theorem float_xz (z : ℂ) : flRunPhase .exact (oddOps z) 1 [on1 .x 0, on1 .z 0] ⟨some [0, 1], 0⟩ noArgsF =
    (⟨some [0, z], 1⟩, .ok (.statevector [0, z], fun _ => 0)) := by rfl

/-- Under the hypotheses of C96 for numpy: after `x[0]`, a run (which fills the cache) and `z[0]`, the next run begins
with the cached array and computes `z[0]` only, with the odd product. -/
example (z : ℂ) :
    let k := besideClass (flKit .exact (oddOps z)) (noKitF RunArgs)
    let h : List (Cmd Unit Unit (Unit ⊕ Empty) RunArgs) :=
      [.new 1, .append 0 (on1 .x 0), .run 0 .none noArgsF, .append 0 (on1 .z 0)]
    let w := (World.start (.inl NpBackend.new) oneReg).exec k (fun _ => false) h
    (∀ c ∈ h, NoDaggerCopy c) ∧ 0 < w.nCircs ∧ OwnClass w 0 "it" ∧
      (view w 0).bes = [("it", .inl ⟨some [0, 1], 0⟩)] ∧
      (w.step k (fun _ => false) (.run 0 .none noArgsF)).2 =
        .ok (.result (.inl (.statevector [0, z], fun _ => 0))) := by
  intro k h w
  have hb : (view w 0).bes = [("it", .inl (flRunPhase .exact (oddOps z) 1 [on1 .x 0] NpBackend.new noArgsF).1)] := rfl
  rw [float_x] at hb
  refine ⟨by simp [h, NoDaggerCopy], Nat.one_pos, .inl ⟨⟨some [0, 1], 0⟩, by rw [hb]; rfl⟩, hb, ?_⟩
  have hs : (w.step k (fun _ => false) (.run 0 .none noArgsF)).2 =
      Except.map Out.result (Except.map Sum.inl
        (flRunPhase .exact (oddOps z) 1 [on1 .x 0, on1 .z 0] ⟨some [0, 1], 0⟩ noArgsF).2) :=
    (C55_selection k (fun _ => false) w 0 Nat.one_pos none noArgsF).1 (.inl ⟨some [0, 1], 0⟩) (by rw [hb]; rfl)
  rw [hs, float_xz]; rfl

/-- Two dtypes: exact arithmetic for `false`, for `true` every kernel writes `z`. -/
noncomputable def twoTypes (z : ℂ) : Bool → NbFloat
  | false => .exact
  | true => { NbFloat.exact with store := fun _ _ _ _ _ => z }

/-- No run arguments. -/
def noArgsT : NbArgs := ⟨none, none, true, false, fun _ => 0, none⟩

theorem typed_x (z : ℂ) : nbTypedRun (fun _ => .exact) (twoTypes z) 1 [on1 .x 0] NbTyped.new noArgsT true =
    (⟨some (true, [z, z]), 0⟩, .ok (.statevector [z, z], fun _ => 0)) := by rfl

theorem typed_same (z : ℂ) : nbTypedRun (fun _ => .exact) (twoTypes z) 1 [on1 .x 0] ⟨some (true, [z, z]), 0⟩ noArgsT true =
    (⟨some (true, [z, z]), 0⟩, .ok (.statevector [z, z], fun _ => 0)) := by rfl

theorem typed_other (z : ℂ) : nbTypedRun (fun _ => .exact) (twoTypes z) 1 [on1 .x 0] ⟨some (true, [z, z]), 0⟩ noArgsT
    false = (⟨some (false, [0, 1]), 0⟩, .ok (.statevector [0, 1], fun _ => 0)) := by rfl

/-- Under the hypotheses of C96 for numba: `x[0]`, then a run with dtype `true`, which caches an array of that dtype.
A run with dtype `true` returns that array, a run with the default dtype does not. -/
example (z : ℂ) :
    let k := besideClass (nbTypedKit (fun _ => .exact) (twoTypes z) false) (noKitF (NbArgs × Option Bool))
    let h : List (Cmd Unit Unit (Unit ⊕ Empty) (NbArgs × Option Bool)) :=
      [.new 1, .append 0 (on1 .x 0), .run 0 .none (noArgsT, some true)]
    let w := (World.start (.inl NbTyped.new) oneReg).exec k (fun _ => false) h
    (∀ c ∈ h, NoDaggerCopy c ∧ NoInterruptTyped c) ∧ 0 < w.nCircs ∧ OwnClass w 0 "it" ∧
      (view w 0).bes = [("it", .inl ⟨some (true, [z, z]), 0⟩)] ∧
      (w.step k (fun _ => false) (.run 0 .none (noArgsT, some true))).2 =
        .ok (.result (.inl (.statevector [z, z], fun _ => 0))) ∧
      (w.step k (fun _ => false) (.run 0 .none (noArgsT, none))).2 =
        .ok (.result (.inl (.statevector [0, 1], fun _ => 0))) := by
  intro k h w
  have hb : (view w 0).bes =
      [("it", .inl (nbTypedRun (fun _ => .exact) (twoTypes z) 1 [on1 .x 0] NbTyped.new noArgsT true).1)] := rfl
  rw [typed_x] at hb
  refine ⟨by simp [h, NoDaggerCopy, NoInterruptTyped, noArgsT], Nat.one_pos,
    .inl ⟨⟨some (true, [z, z]), 0⟩, by rw [hb]; rfl⟩, hb, ?_, ?_⟩
  · have hs : (w.step k (fun _ => false) (.run 0 .none (noArgsT, some true))).2 =
        Except.map Out.result (Except.map Sum.inl
          (nbTypedRun (fun _ => .exact) (twoTypes z) 1 [on1 .x 0] ⟨some (true, [z, z]), 0⟩ noArgsT true).2) :=
      (C55_selection k (fun _ => false) w 0 Nat.one_pos none (noArgsT, some true)).1 (.inl ⟨some (true, [z, z]), 0⟩)
        (by rw [hb]; rfl)
    rw [hs, typed_same]; rfl
  · have hs : (w.step k (fun _ => false) (.run 0 .none (noArgsT, none))).2 =
        Except.map Out.result (Except.map Sum.inl
          (nbTypedRun (fun _ => .exact) (twoTypes z) 1 [on1 .x 0] ⟨some (true, [z, z]), 0⟩ noArgsT false).2) :=
      (C55_selection k (fun _ => false) w 0 Nat.one_pos none (noArgsT, none)).1 (.inl ⟨some (true, [z, z]), 0⟩)
        (by rw [hb]; rfl)
    rw [hs, typed_other]; rfl

end Blueqat
