import Verif.NpPrefix
import Verif.Props.NpCache
import Verif.Props.Circuit

/-!
# Property C17: what `dagger(copy_backends=True)` computes
-/

set_option linter.unusedSimpArgs false
set_option linter.unusedVariables false

namespace Blueqat

open Spec

section
variable {V M C B R : Type}

theorem prefix_rules (other : Kit C B RunArgs R) (isAttr : String → Bool) :
    InvRules (V := V) (M := M) (beside other) isAttr (fun _ _ => True)
      (fun ops b => match b with | .inl be => CacheInv ops be ∧ PrefixUnitary ops be | .inr _ => True) (fun _ c => NoDaggerCopy c) where
  new := fun _ => trivial
  newFrom := fun _ _ _ _ => trivial
  append := by intro w i g n ops _ _ _ _ _; cases getMaximumIndex g.targets <;> trivial
  add := fun _ _ _ _ _ _ => trivial
  dagger := fun _ _ _ _ _ _ => trivial
  make := by
    intro ops c
    cases c with
    | inl c => exact ⟨cacheInv_of_ok (cacheOK_new 0 ops), prefixUnitary_new ops⟩
    | inr c => trivial
  ext := by
    intro a l b h
    cases b with
    | inl be => exact ⟨fun n => cacheOK_append l (h.1 n), prefixUnitary_append l h.2⟩
    | inr b => trivial
  run := by
    intro w c ops n b a _ _ h
    cases b with
    | inl be => exact ⟨(npRunArgs_spec n ops be h.1 a).1, npRunArgs_prefix n ops be a h.1 h.2⟩
    | inr b => trivial
  makeCache := by
    intro w c ops n b a _ _ h
    cases b with
    | inl be => exact ⟨(npRunArgs_spec n ops be h.1 ⟨none, none, false, a.rnd⟩).1, npRunArgs_prefix n ops be _ h.1 h.2⟩
    | inr b => trivial
  daggerQ := by intro w i ign cd ops l b h; simp [NoDaggerCopy] at h

theorem run_step {A R' C' B' : Type} (kit : Kit C' B' A R') (isAttr : String → Bool) (w : World V M C' B') (i : ℕ)
    (hi : i < w.nCircs) (explicit : Option String) (a : A) :
    w.step kit isAttr (.run i (selOf explicit) a) = (match w.getBackend kit i (inForce explicit (view w i).dflt w.reg.dflt) with
        | .error e => (w, .error e)
        | .ok (w, addr) => w.runAt kit i addr a) := by
  simp only [World.step, World.onCirc, hi, if_true]
  cases explicit with
  | some s => rfl
  | none =>
    have : inForce none (view w i).dflt w.reg.dflt = w.dfltName i := by
      simp only [inForce, World.dfltName, view]
      cases (w.circs i).dflt <;> rfl
    rw [this]; rfl

/-- The numpy object of a circuit after a run on it. -/
theorem own_after_run (other : Kit C B RunArgs R) (isAttr : String → Bool) (w : World V M (Unit ⊕ C) (NpBackend ⊕ B)) (hwf : w.WF) (i : ℕ)
    (hi : i < w.nCircs) (explicit : Option String) (a : RunArgs)
    (hinv : ∀ p ∈ (view w i).bes, match p.2 with | .inl be => CacheInv (view w i).ops be ∧ PrefixUnitary (view w i).ops be | .inr _ => True)
    (hown : OwnNumpy w i (inForce explicit (view w i).dflt w.reg.dflt)) (hs : ∀ s, a.shots = some s → 1 ≤ s)
    (x : NpVal × (ℕ → ℝ)) (hx : freshRun (view w i).n (view w i).ops a = .ok x) :
    let w' := (w.step (beside other) isAttr (.run i (selOf explicit) a)).1
    (∃ be, PyDict.get (view w' i).bes (inForce explicit (view w i).dflt w.reg.dflt) = some (.inl be) ∧
      HoldsState (view w i).n (unitaryPart (view w i).ops) be) ∧
    (view w' i).ops = (view w i).ops ∧ (view w' i).n = (view w i).n ∧ (view w' i).dflt = (view w i).dflt ∧
      w'.nCircs = w.nCircs ∧ w'.reg = w.reg := by
  intro w'
  obtain ⟨name, hname⟩ : ∃ name, inForce explicit (view w i).dflt w.reg.dflt = name := ⟨_, rfl⟩
  rw [hname] at hown ⊢
  have hstep := run_step (beside other) isAttr w i hi explicit a
  rw [hname] at hstep
  have hget : PyDict.get (view w i).bes name = ((w.circs i).bes.get name).map w.bes := get_map _ _ _
  rcases hown with ⟨be, hbe⟩ | ⟨hn, hc⟩
  · rw [hget] at hbe
    cases hg : (w.circs i).bes.get name with
    | none => rw [hg] at hbe; cases hbe
    | some ad =>
      rw [hg] at hbe
      simp only [Option.map_some, Option.some.injEq] at hbe
      have hinv' := hinv (name, .inl be) (by
        have := PyDict.get_mem hg
        simp only [view, List.mem_map]
        exact ⟨_, this, by simp [hbe]⟩)
      have hw' : w' = { w with bes := Function.update w.bes ad (.inl (npRunArgs (view w i).n (view w i).ops be a).1) } := by
        simp only [w', hstep, World.getBackend, hg, World.runAt, hbe]
        rfl
      refine ⟨⟨(npRunArgs (view w i).n (view w i).ops be a).1, ?_, ?_⟩, ?_⟩
      · rw [hw']
        simp only [view]
        rw [get_map, hg]; simp [view]
      · exact npRunArgs_fills _ _ be a hinv'.1 hinv'.2 hs x hx
      · rw [hw']; exact ⟨rfl, rfl, rfl, rfl, rfl⟩
  · rw [hget] at hn
    have hg : (w.circs i).bes.get name = none := by
      cases hg : (w.circs i).bes.get name with
      | none => rfl
      | some ad => rw [hg] at hn; cases hn
    have hfr := npRunArgs_fills (view w i).n (view w i).ops NpBackend.new a (cacheInv_of_ok (cacheOK_new 0 _)) (prefixUnitary_new _) hs x hx
    have hw' : w' = (({ w with
        bes := Function.update w.bes w.nBes ((beside other).make (.inl ()))
        nBes := w.nBes + 1
        circs := Function.update w.circs i { w.circs i with bes := (w.circs i).bes.set name w.nBes } } :
          World V M (Unit ⊕ C) (NpBackend ⊕ B)).runAt (beside other) i w.nBes a).1 := by
      simp only [w', hstep, World.getBackend, hg, hc]
    refine ⟨⟨(npRunArgs (view w i).n (view w i).ops NpBackend.new a).1, ?_, hfr⟩, ?_⟩
    · rw [hw']
      simp only [World.runAt, view, Function.update_self]
      rw [get_map, PyDict.get_set, if_pos rfl]
      simp [beside, npKit]
    · rw [hw']
      simp only [World.runAt, view, Function.update_self]
      exact ⟨trivial, trivial, trivial, trivial, trivial⟩

/-- C17 (what the exception does): after any history without `dagger(copy_backends=True)`, a run of circuit `i` on its own numpy
backend that succeeds with at least one shot, and then `d = c.dagger(copy_backends=True)`, a run of `d` with the same backend name
executes the operations of `c` before its first measurement or reset, and then those of the dagger from that position on. If `c`
has no measurement and no reset, this is `c` itself: the dagger runs as the circuit it should undo. -/
theorem C17_dagger_copy_backends (other : Kit C B RunArgs R) (isAttr : String → Bool) (b : NpBackend ⊕ B)
    (reg : Registry V M (Unit ⊕ C)) (h : List (Cmd V M (Unit ⊕ C) RunArgs)) (hh : ∀ c ∈ h, NoDaggerCopy c)
    (i : ℕ) (explicit explicit' : Option String) (ign cd : Bool) (a a' : RunArgs) :
    let w := (World.start b reg).exec (beside other) isAttr h
    let name := inForce explicit (view w i).dflt w.reg.dflt
    let w' := w.exec (beside other) isAttr [.run i (selOf explicit) a, .dagger i ign true cd]
    let U := unitaryPart (view w i).ops
    let D := (view w i).ops.reverse.filterMap (fun g => g.dagger.toOption)
    ∀ x y, i < w.nCircs → OwnNumpy w i name → (ign = true ∨ ∀ g ∈ (view w i).ops, ¬ NonUnitary g) →
      (∀ s, a.shots = some s → 1 ≤ s) → (∀ s, a'.shots = some s → 1 ≤ s) →
      freshRun (view w i).n (view w i).ops a = .ok x →
      inForce explicit' (if cd then (view w i).dflt else none) w.reg.dflt = name →
      freshRun (view w i).n (U ++ D.drop U.length) a' = .ok y →
      (view w' w.nCircs).ops = D ∧
      (w'.step (beside other) isAttr (.run w.nCircs (selOf explicit') a')).2 = .ok (.result (.inl y)) ∧
      ((∀ g ∈ (view w i).ops, ¬ NonUnitary g) → freshRun (view w i).n (view w i).ops a' = .ok y) := by
  intro w name w' U D x y hi hown hno hs hs' hx hname hy
  have hwf : w.WF := WF_exec (beside other) isAttr (WF_start b reg) h
  have hok : ∀ (h : List (Cmd V M (Unit ⊕ C) RunArgs)) (w0 : World V M (Unit ⊕ C) (NpBackend ⊕ B)),
      (∀ c ∈ h, NoDaggerCopy c) → OkHist (beside other) isAttr (fun _ c => NoDaggerCopy c) w0 h := by
    intro h
    induction h with
    | nil => intro _ _; trivial
    | cons c h ih => intro w0 hc; exact ⟨hc c (by simp), ih _ (fun c hc' => hc c (by simp [hc']))⟩
  have hall := allCircs_exec (prefix_rules (V := V) (M := M) other isAttr) h _ (WF_start b reg) (allCircs_start b reg)
    (hok h _ hh)
  obtain ⟨⟨be, hbe, hst⟩, e1, e2, e3, e4, e5⟩ := own_after_run other isAttr w hwf i hi explicit a (hall i hi).2 hown hs x hx
  have hex : (World.start b reg).exec (beside other) isAttr (h ++ [.run i (selOf explicit) a]) =
      (w.step (beside other) isAttr (.run i (selOf explicit) a)).1 := by
    simp [World.exec, List.foldl_append, w]
  have hdag := C13_dagger_ops (beside other) isAttr b reg (h ++ [.run i (selOf explicit) a]) i ign true cd
  simp only [hex, e4, e1, e2, e3] at hdag
  obtain ⟨-, hv⟩ := hdag hi hno
  have hw' : w' = ((w.step (beside other) isAttr (.run i (selOf explicit) a)).1.step (beside other) isAttr (.dagger i ign true cd)).1 := rfl
  rw [← hw'] at hv
  have hn' : w.nCircs < w'.nCircs ∧ w'.reg = w.reg := by
    have hd := (daggerOps_spec ign (((w.step (beside other) isAttr (.run i (selOf explicit) a)).1).lists
      (((w.step (beside other) isAttr (.run i (selOf explicit) a)).1).circs i).ops).reverse).2 (by
        rcases hno with h | h
        · exact .inl h
        · right
          intro g hg
          have : g ∈ (view (w.step (beside other) isAttr (.run i (selOf explicit) a)).1 i).ops := by simpa [view] using hg
          rw [e1] at this
          exact h g this)
    rw [hw']
    generalize (w.step (beside other) isAttr (.run i (selOf explicit) a)).1 = w1 at hd e4 e5
    have hi1 : i < w1.nCircs := by rw [e4]; exact hi
    have hc : (w1.copyBes (w1.circs i).bes).1.nCircs = w1.nCircs ∧ (w1.copyBes (w1.circs i).bes).1.reg = w1.reg := by
      rw [(copyBes_spec (w1.circs i).bes w1).1]; exact ⟨rfl, rfl⟩
    rw [← e4, ← e5]
    simp only [World.step, World.onCirc, hi1, if_true, hd, World.alloc, hc]
    exact ⟨Nat.lt_succ_self _, trivial⟩
  refine ⟨by rw [hv], ?_, ?_⟩
  · have hsel := (C55_selection (beside other) isAttr w' w.nCircs hn'.1 explicit' a').1 (.inl be) (by
      rw [hv, hn'.2]
      simp only [hname]
      exact hbe)
    rw [hsel, hv]
    have hL : U.all (fun g => !g.isMeas) = true := by simp only [U]; rw [unitaryPart_eq]; exact List.all_takeWhile
    have := (npRunArgs_shared (view w i).n (view w i).n U D be a' hst hL hs' (U ++ D.drop U.length) (by simp) y hy).1
    simp only [beside, npKit]
    show Except.map Out.result (Except.map Sum.inl (npRunArgs (view w i).n D be a').2) = _
    rw [this]; rfl
  · intro hu
    have hU : U = (view w i).ops := by
      simp only [U]
      generalize (view w i).ops = l at hu
      induction l with
      | nil => rfl
      | cons g l ih =>
        have h1 := ih (fun g hg => hu g (by simp [hg]))
        have h2 := hu g (by simp)
        cases g <;> simp_all [unitaryPart, NonUnitary]
    have hlen : D.length ≤ (view w i).ops.length := by
      refine (List.length_filterMap_le _ _).trans ?_
      simp
    rw [hU, List.drop_eq_nil_of_le hlen, List.append_nil] at hy
    exact hy

end

/-- `c = Circuit(1).y[0].z[0]; c.run(); d = c.dagger(copy_backends=True); d.run()` meets the hypotheses: `d` gives the state of
`y[0].z[0]`. -/
example :
    let h : List (Cmd Unit Unit (Unit ⊕ Empty) RunArgs) := [.new 1, .append 0 (on1 .y 0), .append 0 (on1 .z 0)]
    let w := npStart.exec (beside noKit) (fun _ => false) h
    (∀ c ∈ h, NoDaggerCopy c) ∧ 0 < w.nCircs ∧ OwnNumpy w 0 "numpy" ∧ (∀ g ∈ (view w 0).ops, ¬ NonUnitary g) ∧
      inForce none (view w 0).dflt w.reg.dflt = "numpy" ∧
      freshRun (view w 0).n (view w 0).ops noArgs =
        .ok (.statevector [-1 * Complex.I * 0, 1 * Complex.I * 1 * (-1)], fun _ => 0) ∧
      (view w 0).ops.reverse.filterMap (fun g => g.dagger.toOption) = [on1 .z 0, on1 .y 0] := by
  intro h w
  refine ⟨by simp [h, NoDaggerCopy], Nat.one_pos, .inr ⟨rfl, rfl⟩, ?_, rfl, rfl, rfl⟩
  intro g hg
  have : (view w 0).ops = [on1 .y 0, on1 .z 0] := rfl
  rw [this] at hg
  simp only [List.mem_cons, List.mem_nil_iff, or_false] at hg
  rcases hg with rfl | rfl <;> exact fun h => h

end Blueqat
