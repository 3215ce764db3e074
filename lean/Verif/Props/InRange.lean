import Verif.Spec.InRange
import Verif.WorldInv
import Verif.AppendLemmas
import Verif.Props.Circuit
import Verif.TargetsLemmas

/-!
# C02: targets stay inside the register
-/

set_option linter.unusedSimpArgs false
set_option linter.unusedVariables false

namespace Blueqat

open Spec

theorem vals_in_range (n : ℕ) (a : Atom) (h : ∀ v, a = .int v → -(n : ℤ) ≤ v ∧ v < n) :
    ∀ q ∈ (slicingSinglevalue a n).vals, 0 ≤ q ∧ q < n := by
  intro q hq
  cases a with
  | int v =>
    have := h v rfl
    simp only [slicingSinglevalue] at hq
    split_ifs at hq <;> simp at hq <;> omega
  | bad => simp [slicingSinglevalue] at hq
  | slice a b c =>
    by_cases hc : c = some 0
    · subst hc; simp [slicingSinglevalue, sliceIndices] at hq
    · obtain ⟨L, h1, h2⟩ := C01_slice n a b c hc
      have h1' : slicingSinglevalue (.slice a b c) n = ⟨L, none⟩ := h1
      rw [h1'] at hq
      exact ⟨((h2.1 q).1 hq).1, ((h2.1 q).1 hq).2.1⟩

theorem forEach_vals {α β : Type} (f : α → Gen β) (P : β → Prop) (xs : List α)
    (h : ∀ x ∈ xs, ∀ q ∈ (f x).vals, P q) : ∀ q ∈ (Gen.forEach f xs).vals, P q := by
  induction xs with
  | nil => simp [Gen.forEach]
  | cons x xs ih =>
    intro q hq
    have ih' := ih (fun x hx => h x (by simp [hx]))
    simp only [Gen.forEach, Gen.append] at hq
    split at hq
    · rcases List.mem_append.1 hq with hq | hq
      · exact h x (by simp) q hq
      · exact ih' q hq
    · exact h x (by simp) q hq

theorem resolvesInside_of_written (n : ℕ) (g : Gate) (h : WrittenInRange n g) : ResolvesInside n g := by
  have hone : ∀ T : Targets, (∀ v ∈ intsOf T, -(n : ℤ) ≤ v ∧ v < n) →
      ∀ q ∈ (slicing T n).vals, 0 ≤ q ∧ q < n := by
    intro T hT
    cases T with
    | one a =>
      refine vals_in_range n a (fun v hv => hT v ?_)
      subst hv; simp [intsOf, atomsOf]
    | tup xs =>
      refine forEach_vals _ _ xs (fun x hx => ?_)
      cases x with
      | tup as => simp [slicingItemAsSingle]
      | atom a =>
        refine vals_in_range n a (fun v hv => hT v ?_)
        subst hv
        simp only [intsOf, atomsOf, List.mem_flatMap]
        exact ⟨.int v, ⟨_, hx, by simp⟩, by simp⟩
  have hitem : ∀ (x : Item), (∀ v, v ∈ intsOf (x.toTargets) → -(n : ℤ) ≤ v ∧ v < n) →
      ∀ q ∈ (slicingItem x n).vals, 0 ≤ q ∧ q < n := by
    intro x hx
    cases x with
    | atom a =>
      refine vals_in_range n a (fun v hv => hx v ?_)
      subst hv; simp [intsOf, atomsOf, Item.toTargets]
    | tup as =>
      refine forEach_vals _ _ as (fun a ha => vals_in_range n a (fun v hv => hx v ?_))
      subst hv
      simp only [Item.toTargets, intsOf, atomsOf, List.mem_flatMap, List.mem_map]
      exact ⟨.int v, ⟨_, ⟨_, ha, rfl⟩, by simp⟩, by simp⟩
  cases g with
  | g1 k T => exact hone T h
  | measure T => exact hone T h
  | reset T => exact hone T h
  | g3 k T => exact h
  | g2 k T =>
    rintro a b rfl
    have hh : ∀ v ∈ intsOf (Targets.tup [a, b]), -(n : ℤ) ≤ v ∧ v < n := h
    constructor
    · refine hitem a (fun v hv => hh v ?_)
      cases a <;> simp [intsOf, atomsOf, Item.toTargets] at hv ⊢
      · exact .inl hv
      · rename_i as
        obtain ⟨c, hc, hv⟩ := hv
        exact .inl ⟨c, hc, hv⟩
    · refine hitem b (fun v hv => hh v ?_)
      cases b <;> simp [intsOf, atomsOf, Item.toTargets] at hv ⊢
      · exact .inr hv
      · rename_i as
        obtain ⟨c, hc, hv⟩ := hv
        exact .inr ⟨c, hc, hv⟩

theorem intsOf_mentions {T : Targets} {v : ℤ} (h : v ∈ intsOf T) : v ∈ mentions T := by
  simp only [intsOf, mentions, List.mem_flatMap] at h ⊢
  obtain ⟨a, ha, hv⟩ := h
  refine ⟨a, ha, ?_⟩
  cases a <;> simp [atomMentions] at hv ⊢
  exact hv

theorem writtenInRange_mono {n m : ℕ} (h : n ≤ m) {g : Gate} (hg : WrittenInRange n g) : WrittenInRange m g := by
  intro v hv
  have := hg v hv
  cases g <;> simp only [lowest] at this ⊢ <;> omega

theorem inRange_rules {V M C B A R : Type} (kit : Kit C B A R) (isAttr : String → Bool) :
    InvRules (V := V) (M := M) kit isAttr (fun n ops => ∀ g ∈ ops, WrittenInRange n g) (fun _ _ => True)
      (fun w c => UsesInRange w c) where
  new := by simp
  newFrom := fun w n ops h => h
  append := by
    intro w i g n ops hn hops hi hok hN
    obtain ⟨hp, m, hm, hlow⟩ := hok
    cases hv : getMaximumIndex g.targets with
    | error e => obtain ⟨v, hv'⟩ := getMaximumIndex_plain hp; rw [hv] at hv'; cases hv'
    | ok mx =>
      have hgr := newQubits_grown hv n
      have hmm : m = newQubits mx n := by
        subst hn; exact hm.unique hgr
      subst hmm
      intro g' hg'
      rcases List.mem_append.1 hg' with hg' | hg'
      · exact writtenInRange_mono hgr.1.1 (hN g' hg')
      · simp only [List.mem_singleton] at hg'
        subst hg'
        exact fun v hv => ⟨hlow v hv, hgr.1.2 v (intsOf_mentions hv)⟩
  add := by
    intro n m a b ha hb g hg
    rcases List.mem_append.1 hg with hg | hg
    · exact writtenInRange_mono (le_max_left _ _) (ha g hg)
    · exact writtenInRange_mono (le_max_right _ _) (hb g hg)
  dagger := by
    intro n a ign l ha hd
    have key : ∀ (a l : List Gate), (∀ g ∈ a, WrittenInRange n g) → daggerOps ign a = .ok l →
        ∀ g ∈ l, WrittenInRange n g := by
      intro a
      induction a with
      | nil => intro l _ h; simp [daggerOps] at h; subst h; simp
      | cons g a ih =>
        intro l ha h
        simp only [daggerOps] at h
        cases hg : g.dagger with
        | ok g' =>
          rw [hg] at h
          cases hr : daggerOps ign a with
          | error e => rw [hr] at h; cases h
          | ok r =>
            rw [hr] at h
            cases h
            intro x hx
            rcases List.mem_cons.1 hx with rfl | hx
            · have := ha g (by simp)
              cases g <;> simp only [Gate.dagger, Except.ok.injEq, reduceCtorEq] at hg <;> subst hg <;> exact this
            · exact ih r (fun g hg => ha g (by simp [hg])) hr x hx
        | error e =>
          rw [hg] at h
          simp only at h
          split_ifs at h with h1 h2
          exact ih l (fun g hg => ha g (by simp [hg])) h
    exact key a.reverse l (fun g hg => ha g (by simpa using hg)) hd
  make := fun _ _ => trivial
  ext := fun _ _ _ _ => trivial
  run := fun _ _ _ _ _ _ _ _ _ => trivial
  makeCache := fun _ _ _ _ _ _ _ _ _ => trivial
  daggerQ := fun _ _ _ _ _ _ _ _ _ _ => trivial

/-- C02: after any history of client actions (appends, copies, concatenations, daggers, runs, ...) in which every
append used a well-formed subscript without an index below the register, every qubit index that any operation
of any circuit resolves to lies inside that circuit's register. -/
theorem C02_targets_inside {V M C B A R : Type} (kit : Kit C B A R) (isAttr : String → Bool) (b : B)
    (reg : Registry V M C) (h : List (Cmd V M C A)) (hok : OkHist kit isAttr (fun w c => UsesInRange w c) (World.start b reg) h) :
    let w := (World.start b reg).exec kit isAttr h
    ∀ j < w.nCircs, ∀ g ∈ (view w j).ops, ResolvesInside (view w j).n g := by
  intro w j hj g hg
  have := allCircs_exec (inRange_rules (V := V) (M := M) kit isAttr) h _ (WF_start b reg) (allCircs_start b reg) hok
  exact resolvesInside_of_written _ _ ((this j hj).1 g hg)

/-- The program `a = Circuit(1); a.x[-1, 2:5]; b = Circuit(); b.cx[:, 7]; a += b`: all appends are in range. -/
example : OkHist demoKit (fun _ => false) (fun w c => UsesInRange w c) demoStart
    [.new 1, .append 0 (.g1 .x (.tup [.atom (.int (-1)), .atom (.slice (some 2) (some 5) none)])), .new 0,
      .append 1 (.g2 .cx (.tup [.atom (.slice none none none), .atom (.int 7)])), .iadd 0 1] := by
  refine ⟨trivial, ⟨by simp [Plain, Gate.targets], 5, ?_, ?_⟩, trivial, ⟨by simp [Plain, Gate.targets], 8, ?_, ?_⟩, trivial, trivial⟩
  · have : (view (demoStart.step demoKit (fun _ => false) (.new 1)).1 0).n = 1 := by
      simp [World.step, World.alloc, demoStart, World.start, view, Function.update]
    rw [this]
    constructor
    · simp [Gate.targets, mentions, atomsOf, atomMentions]
    · rintro m ⟨h1, h2⟩
      have := h2 4 (by simp [Gate.targets, mentions, atomsOf, atomMentions]); omega
  · simp [intsOf, atomsOf, Gate.targets, lowest]
  · constructor
    · simp [Gate.targets, mentions, atomsOf, atomMentions, World.step, World.alloc, demoStart, World.start, view,
        Function.update, World.onCirc, getMaximumIndex, maxOver, maximumIdxSingle]
    · rintro m ⟨h1, h2⟩
      have := h2 7 (by simp [Gate.targets, mentions, atomsOf, atomMentions]); omega
  · simp [intsOf, atomsOf, Gate.targets, lowest]

end Blueqat
