import Verif.WorldLemmas

/-! Lemma: an induction principle for properties of circuits over all histories. -/

set_option linter.unusedSimpArgs false
set_option linter.unusedVariables false

namespace Blueqat

open Spec

section
variable {V M C B A R : Type}

/-- The arguments an action passes to a backend. -/
def Cmd.args : Cmd V M C A → Option A
  | .run _ _ a => some a
  | .runWith _ _ a => some a
  | .makeCache _ _ a => some a
  | _ => none

/-- The entries of a dict after an assignment: old ones and the new pair. -/
theorem mem_set_entry {d : PyDict String ℕ} {k : String} {v : ℕ} {p : String × ℕ} (h : p ∈ d.set k v) :
    p ∈ d ∨ p = (k, v) := by
  induction d with
  | nil => simp [PyDict.set] at h; right; exact h
  | cons q rest ih =>
    obtain ⟨a, b⟩ := q
    simp only [PyDict.set] at h
    split_ifs at h with h1
    · simp only [List.mem_cons] at h
      rcases h with h | h
      · right; rw [h]; simp_all
      · left; simp [h]
    · simp only [List.mem_cons] at h
      rcases h with rfl | h
      · left; simp
      · rcases ih h with h | h
        · left; simp [h]
        · right; exact h

/-- The proof obligations: `N` relates size and operations, `Q` the name, the
operations and one backend instance of the circuit; `ok` restricts the histories. -/
structure NamedRules (kit : Kit C B A R) (isAttr : String → Bool) (N : ℕ → List Gate → Prop)
    (Q : String → List Gate → B → Prop) (ok : World V M C B → Cmd V M C A → Prop) : Prop where
  new : ∀ n, N n []
  newFrom : ∀ w n ops, ok w (.newFrom n ops) → N n ops
  append : ∀ w i g n ops, n = (w.circs i).n → ops = w.lists (w.circs i).ops → i < w.nCircs → ok w (.append i g) → N n ops →
    match getMaximumIndex g.targets with
    | .error _ => N n (ops ++ [g])
    | .ok mx => N (newQubits mx n) (ops ++ [g])
  add : ∀ n m a b, N n a → N m b → N (max n m) (a ++ b)
  dagger : ∀ n a ign l, N n a → daggerOps ign a.reverse = .ok l → N n l
  make : ∀ (w : World V M C B) (c : Cmd V M C A) name cl ops, ok w c → w.reg.backends.get name = some cl → Q name ops (kit.make cl)
  ext : ∀ s a l b, Q s a b → Q s (a ++ l) b
  run : ∀ w c s ops n b a, ok w c → c.args = some a → Q s ops b → Q s ops (kit.run b ops n a).1
  makeCache : ∀ w c s ops n b a, ok w c → c.args = some a → Q s ops b → Q s ops (kit.makeCache b ops n a).1
  daggerQ : ∀ w i ign cd s ops l b, ok w (.dagger i ign true cd) → daggerOps ign ops.reverse = .ok l → Q s ops b → Q s l b

/-- The invariant over all circuits of a world, with the names of the instances. -/
def NamedCircs (N : ℕ → List Gate → Prop) (Q : String → List Gate → B → Prop) (w : World V M C B) : Prop :=
  ∀ j < w.nCircs, N (view w j).n (view w j).ops ∧ ∀ p ∈ (view w j).bes, Q p.1 (view w j).ops p.2

theorem namedCircs_step {kit : Kit C B A R} {isAttr : String → Bool} {N : ℕ → List Gate → Prop}
    {Q : String → List Gate → B → Prop} {ok : World V M C B → Cmd V M C A → Prop}
    (hr : NamedRules kit isAttr N Q ok) {w : World V M C B} (hwf : w.WF) (hw : NamedCircs N Q w)
    (c : Cmd V M C A) (hok : ok w c) : NamedCircs N Q (w.step kit isAttr c).1 := by
  have hf := frame_step kit isAttr hwf c
  -- it is enough to look at the receiver and at new circuits
  suffices h : ∀ j < (w.step kit isAttr c).1.nCircs, receiver c = some j ∨ w.nCircs ≤ j →
      N (view (w.step kit isAttr c).1 j).n (view (w.step kit isAttr c).1 j).ops ∧
        ∀ p ∈ (view (w.step kit isAttr c).1 j).bes, Q p.1 (view (w.step kit isAttr c).1 j).ops p.2 by
    intro j hj
    by_cases h1 : receiver c = some j ∨ w.nCircs ≤ j
    · exact h j hj h1
    · rw [not_or, not_le] at h1
      rw [hf.same j h1.2 h1.1]
      exact hw j h1.2
  intro j hj hcase
  -- helper: a new circuit made by `alloc`
  have halloc : ∀ (w0 : World V M C B) n ops d df, w0.nCircs = w.nCircs →
      j < (w0.alloc n ops d df).nCircs → w.nCircs ≤ j → j = w0.nCircs := by
    intro w0 n ops d df h1 h2 h3
    simp only [World.alloc] at h2; omega
  -- helper: running on a backend of circuit i
  have hgb : ∀ (i : ℕ) (hi : i < w.nCircs) (name : String) (w' : World V M C B) (addr : ℕ),
      w.getBackend kit i name = .ok (w', addr) →
      (w'.nCircs = w.nCircs ∧ N (view w' i).n (view w' i).ops ∧ (∀ p ∈ (view w' i).bes, Q p.1 (view w' i).ops p.2)) := by
    intro i hi name w' addr hg
    obtain ⟨-, h2, h3, h4, h5⟩ := frame_getBackend hwf hi hg
    have hQ := (hw i hi).2
    have hall : ∀ p ∈ (view w' i).bes, Q p.1 (view w' i).ops p.2 := by
      simp only [World.getBackend] at hg
      cases hd : (w.circs i).bes.get name with
      | some b =>
        simp only [hd, Except.ok.injEq, Prod.mk.injEq] at hg
        obtain ⟨rfl, rfl⟩ := hg
        exact hQ
      | none =>
        simp only [hd] at hg
        cases hc : w.reg.backends.get name with
        | none => simp [hc] at hg
        | some cl =>
          simp only [hc, Except.ok.injEq, Prod.mk.injEq] at hg
          obtain ⟨rfl, rfl⟩ := hg
          intro p hp
          simp only [view, Function.update_self, List.mem_map] at hp ⊢
          obtain ⟨q, hq, rfl⟩ := hp
          rcases mem_set_entry hq with hq | hq
          · rw [Function.update_of_ne (hwf.bes_lt i hi q hq).ne]
            exact hQ _ (by simp only [view, List.mem_map]; exact ⟨q, hq, rfl⟩)
          · rw [hq, Function.update_self]; exact hr.make w c name _ _ hok hc
    refine ⟨h2, ?_, hall⟩
    have := (hw i hi).1
    simp only [view] at this ⊢
    rw [h4, h5]; exact this
  have hset : ∀ (w' : World V M C B) (i addr : ℕ) (b : B),
      N (view w' i).n (view w' i).ops → (∀ p ∈ (view w' i).bes, Q p.1 (view w' i).ops p.2) → (∀ s, Q s (view w' i).ops (w'.bes addr) → Q s (view w' i).ops b) →
      N (view { w' with bes := Function.update w'.bes addr b } i).n
        (view { w' with bes := Function.update w'.bes addr b } i).ops ∧
      ∀ p ∈ (view { w' with bes := Function.update w'.bes addr b } i).bes,
        Q p.1 (view { w' with bes := Function.update w'.bes addr b } i).ops p.2 := by
    intro w' i addr b h1 h2 h3
    refine ⟨h1, fun p hp => ?_⟩
    simp only [view, List.mem_map] at hp ⊢
    obtain ⟨q, hq, rfl⟩ := hp
    by_cases he : q.2 = addr
    · simp only [he, Function.update_self]
      refine h3 _ ?_
      have := h2 (q.1, w'.bes q.2) (by simp only [view, List.mem_map]; exact ⟨q, hq, rfl⟩)
      rw [he] at this; exact this
    · simp only [Function.update_of_ne he]
      exact h2 (q.1, w'.bes q.2) (by simp only [view, List.mem_map]; exact ⟨q, hq, rfl⟩)
  have hrun : ∀ (i : ℕ) (hi : i < w.nCircs) (name : String) (a : A), c.args = some a →
      j < ((match w.getBackend kit i name with
        | .error e => (w, (.error e : Except PyErr (Out R)))
        | .ok (w, addr) => w.runAt kit i addr a)).1.nCircs → (some i = some j ∨ w.nCircs ≤ j) →
      N (view ((match w.getBackend kit i name with
        | .error e => (w, (.error e : Except PyErr (Out R)))
        | .ok (w, addr) => w.runAt kit i addr a)).1 j).n (view ((match w.getBackend kit i name with
        | .error e => (w, (.error e : Except PyErr (Out R)))
        | .ok (w, addr) => w.runAt kit i addr a)).1 j).ops ∧
      ∀ p ∈ (view ((match w.getBackend kit i name with
        | .error e => (w, (.error e : Except PyErr (Out R)))
        | .ok (w, addr) => w.runAt kit i addr a)).1 j).bes, Q p.1 (view ((match w.getBackend kit i name with
        | .error e => (w, (.error e : Except PyErr (Out R)))
        | .ok (w, addr) => w.runAt kit i addr a)).1 j).ops p.2 := by
    intro i hi name a hargs
    cases hg : w.getBackend kit i name with
    | error e => intro h1 _; exact hw j h1
    | ok p =>
      obtain ⟨w', addr⟩ := p
      obtain ⟨g1, g2, g3⟩ := hgb i hi name w' addr hg
      intro h1 h2
      simp only [World.runAt] at h1
      have : j = i := by
        rcases h2 with h2 | h2
        · simpa using h2.symm
        · omega
      subst this
      exact hset w' j addr _ g2 g3 (fun s h => hr.run _ _ s _ _ _ _ hok hargs h)
  have hnone : w.nCircs ≤ j → j < w.nCircs → False := fun a b => absurd b (not_lt.2 a)
  cases c with
  | new n =>
    have e := halloc w n [] [] none rfl hj (by simpa [receiver] using hcase)
    subst e
    simp only [World.step, view_alloc]
    exact ⟨hr.new n, by simp⟩
  | newFrom n ops =>
    have e := halloc w n ops [] none rfl hj (by simpa [receiver] using hcase)
    subst e
    simp only [World.step, view_alloc]
    exact ⟨hr.newFrom w n ops hok, by simp⟩
  | append i g =>
    simp only [World.step, World.onCirc] at hj hcase ⊢
    split_ifs at hj ⊢ with hi
    · have hji : j = i := by
        rcases hcase with h | h
        · simpa [receiver] using h.symm
        · cases hv : getMaximumIndex g.targets <;> rw [hv] at hj <;> exact absurd hj (not_lt.2 h)
      subst hji
      have ha := hr.append w j g _ _ rfl rfl hi hok (hw j hi).1
      have hQ := (hw j hi).2
      cases hv : getMaximumIndex g.targets with
      | error e =>
        rw [hv] at ha
        simp only [view, Function.update_self] at hQ ⊢
        exact ⟨ha, fun p hp => hr.ext _ _ _ _ (hQ p hp)⟩
      | ok mx =>
        rw [hv] at ha
        simp only [view, Function.update_self] at hQ ⊢
        exact ⟨ha, fun p hp => hr.ext _ _ _ _ (hQ p hp)⟩
    · exact hw j hj
  | appendCtorError i e =>
    simp only [World.step, World.onCirc] at hj ⊢
    split_ifs at hj ⊢ <;> exact hw j hj
  | copy i cb cd =>
    simp only [World.step, World.onCirc] at hj ⊢
    split_ifs at hj ⊢ with hi
    · have e := halloc _ _ _ _ _ (copyBes_nCircs w cb _) hj (by simpa [receiver] using hcase)
      rw [copyBes_nCircs] at e
      subst e
      simp only [World.copyCirc]
      rw [view_allocCopy hwf i hi]
      refine ⟨(hw i hi).1, ?_⟩
      cases cb
      · simp
      · exact (hw i hi).2
    · exact hw j hj
  | add i k =>
    simp only [World.step, World.onCirc] at hj ⊢
    split_ifs at hj ⊢ with hi hk
    · have e : j = w.nCircs := by
        simp only [World.extend, copyCirc_nCircs] at hj
        have := (by simpa [receiver] using hcase : w.nCircs ≤ j); omega
      subst e
      have hv : view (w.copyCirc i true true) w.nCircs = view w i := view_allocCopy hwf i hi true _ _ _
      have hvk : view (w.copyCirc i true true) k = view w k :=
        (frame_copyCirc hwf i true true).same k hk (by simp)
      have h1 := hw i hi
      have h2 := hw k hk
      rw [← hv] at h1
      rw [← hvk] at h2
      simp only [view, World.extend, Function.update_self] at h1 h2 ⊢
      exact ⟨hr.add _ _ _ _ h1.1 h2.1, fun p hp => hr.ext _ _ _ _ (h1.2 p hp)⟩
    · exact hw j hj
    · exact hw j hj
  | iadd i k =>
    simp only [World.step, World.onCirc] at hj ⊢
    split_ifs at hj ⊢ with hi hk
    · have hji : j = i := by
        rcases hcase with h | h
        · simpa [receiver] using h.symm
        · exact absurd hj (not_lt.2 h)
      subst hji
      have h1 := hw j hi
      have h2 := hw k hk
      simp only [view, World.extend, Function.update_self] at h1 h2 ⊢
      exact ⟨hr.add _ _ _ _ h1.1 h2.1, fun p hp => hr.ext _ _ _ _ (h1.2 p hp)⟩
    · exact hw j hj
    · exact hw j hj
  | dagger i ign cb cd =>
    simp only [World.step, World.onCirc] at hj ⊢
    by_cases hi : i < w.nCircs
    · simp only [if_pos hi] at hj ⊢
      cases hd : daggerOps ign (w.lists (w.circs i).ops).reverse with
      | error e => simp only [hd] at hj ⊢; exact hw j hj
      | ok ops =>
        simp only [hd] at hj ⊢
        have e := halloc _ _ _ _ _ (copyBes_nCircs w cb _) hj (by simpa [receiver] using hcase)
        rw [copyBes_nCircs] at e
        subst e
        rw [view_allocCopy hwf i hi]
        refine ⟨hr.dagger _ _ ign ops (hw i hi).1 hd, ?_⟩
        cases cb
        · simp
        · intro p hp; exact hr.daggerQ w i ign cd _ _ ops _ hok hd ((hw i hi).2 p hp)
    · simp only [if_neg hi] at hj ⊢; exact hw j hj
  | run i sel a =>
    simp only [World.step, World.onCirc] at hj ⊢
    split_ifs at hj ⊢ with hi
    · cases sel with
      | none => exact hrun i hi _ a rfl hj (by simpa [receiver] using hcase)
      | name s => exact hrun i hi s a rfl hj (by simpa [receiver] using hcase)
      | inst k =>
        simp only at hj ⊢
        cases hk : w.insts[k]? with
        | none => rw [hk] at hj; exact hw j hj
        | some addr =>
          rw [hk] at hj
          have hji : j = i := by
            rcases hcase with h | h
            · simpa [receiver] using h.symm
            · exact absurd hj (not_lt.2 h)
          subst hji
          have hvj : view (w.runAt kit j addr a).1 j = view w j := by
            refine view_congr rfl rfl (fun p hp => ?_)
            have : p.2 ≠ addr := by
              rintro rfl; exact hwf.insts_own j hi p hp (List.mem_of_getElem? hk)
            simp [World.runAt, Function.update_of_ne this]
          simp only [hvj]
          exact hw j hi
    · exact hw j hj
  | runWith i s a =>
    simp only [World.step, World.onCirc] at hj ⊢
    split_ifs at hj ⊢ with hi hs
    · exact hrun i hi s a rfl hj (by simpa [receiver] using hcase)
    · exact hw j hj
    · exact hw j hj
  | makeCache i s a =>
    simp only [World.step, World.onCirc] at hj ⊢
    split_ifs at hj ⊢ with hi
    · cases hg : w.getBackend kit i (s.getD (w.dfltName i)) with
      | error e => rw [hg] at hj; exact hw j hj
      | ok p =>
        rw [hg] at hj
        obtain ⟨w', addr⟩ := p
        obtain ⟨g1, g2, g3⟩ := hgb i hi _ w' addr hg
        have hji : j = i := by
          rcases hcase with h | h
          · simpa [receiver] using h.symm
          · simp only at hj; omega
        subst hji
        exact hset w' j addr _ g2 g3 (fun s h => hr.makeCache _ _ s _ _ _ _ hok rfl h)
    · exact hw j hj
  | setDefault i s =>
    simp only [World.step, World.onCirc] at hj ⊢
    split_ifs at hj ⊢ with hi
    · cases s with
      | none => exact hw j hj
      | some s =>
        simp only at hj ⊢
        split_ifs at hj ⊢
        · have hji : j = i := by
            rcases hcase with h | h
            · simpa [receiver] using h.symm
            · exact absurd hj (not_lt.2 h)
          subst hji
          have h1 := hw j hi
          simp only [view, Function.update_self] at h1 ⊢
          exact h1
        · exact hw j hj
    · exact hw j hj
  | newBackend c =>
    have h1 : w.nCircs ≤ j := by simpa [receiver] using hcase
    exact absurd hj (not_lt.2 h1)
  | registerMacro n f a =>
    simp only [World.step] at hj ⊢
    cases hx : w.reg.registerMacro isAttr n f a <;> rw [hx] at hj <;> exact hw j hj
  | unregisterMacro n =>
    simp only [World.step] at hj ⊢
    cases hx : w.reg.unregisterMacro n <;> rw [hx] at hj <;> exact hw j hj
  | registerGate n f a =>
    simp only [World.step] at hj ⊢
    cases hx : w.reg.registerGate isAttr n f a <;> rw [hx] at hj <;> exact hw j hj
  | unregisterGate n =>
    simp only [World.step] at hj ⊢
    cases hx : w.reg.unregisterGate n <;> rw [hx] at hj <;> exact hw j hj
  | registerBackend n f a =>
    simp only [World.step] at hj ⊢
    cases hx : w.reg.registerBackend isAttr n f a <;> rw [hx] at hj <;> exact hw j hj
  | unregisterBackend n =>
    simp only [World.step] at hj ⊢
    cases hx : w.reg.unregisterBackend n <;> rw [hx] at hj <;> exact hw j hj
  | setGlobalDefault n =>
    simp only [World.step] at hj ⊢
    cases hx : w.reg.setDefault n <;> rw [hx] at hj <;> exact hw j hj

/-- The proof obligations: `N` relates size and operations, `Q` the operations and one backend instance of the
circuit; `ok` restricts the histories. -/
structure InvRules (kit : Kit C B A R) (isAttr : String → Bool) (N : ℕ → List Gate → Prop)
    (Q : List Gate → B → Prop) (ok : World V M C B → Cmd V M C A → Prop) : Prop where
  new : ∀ n, N n []
  newFrom : ∀ w n ops, ok w (.newFrom n ops) → N n ops
  append : ∀ w i g n ops, n = (w.circs i).n → ops = w.lists (w.circs i).ops → i < w.nCircs → ok w (.append i g) → N n ops →
    match getMaximumIndex g.targets with
    | .error _ => N n (ops ++ [g])
    | .ok mx => N (newQubits mx n) (ops ++ [g])
  add : ∀ n m a b, N n a → N m b → N (max n m) (a ++ b)
  dagger : ∀ n a ign l, N n a → daggerOps ign a.reverse = .ok l → N n l
  make : ∀ ops c, Q ops (kit.make c)
  ext : ∀ a l b, Q a b → Q (a ++ l) b
  run : ∀ w c ops n b a, ok w c → c.args = some a → Q ops b → Q ops (kit.run b ops n a).1
  makeCache : ∀ w c ops n b a, ok w c → c.args = some a → Q ops b → Q ops (kit.makeCache b ops n a).1
  daggerQ : ∀ w i ign cd ops l b, ok w (.dagger i ign true cd) → daggerOps ign ops.reverse = .ok l → Q ops b → Q l b

/-- The invariant over all circuits of a world. -/
def AllCircs (N : ℕ → List Gate → Prop) (Q : List Gate → B → Prop) (w : World V M C B) : Prop :=
  ∀ j < w.nCircs, N (view w j).n (view w j).ops ∧ ∀ p ∈ (view w j).bes, Q (view w j).ops p.2

theorem allCircs_step {kit : Kit C B A R} {isAttr : String → Bool} {N : ℕ → List Gate → Prop}
    {Q : List Gate → B → Prop} {ok : World V M C B → Cmd V M C A → Prop}
    (hr : InvRules kit isAttr N Q ok) {w : World V M C B} (hwf : w.WF) (hw : AllCircs N Q w)
    (c : Cmd V M C A) (hok : ok w c) : AllCircs N Q (w.step kit isAttr c).1 :=
  namedCircs_step (Q := fun _ => Q) ⟨hr.new, hr.newFrom, hr.append, hr.add, hr.dagger, fun _ _ _ cl ops _ _ => hr.make ops cl,
    fun _ => hr.ext, fun w c _ => hr.run w c, fun w c _ => hr.makeCache w c, fun w i ign cd _ => hr.daggerQ w i ign cd⟩ hwf hw c hok

/-- A history each of whose actions is allowed in the world it is performed in. -/
def OkHist (kit : Kit C B A R) (isAttr : String → Bool) (ok : World V M C B → Cmd V M C A → Prop) :
    World V M C B → List (Cmd V M C A) → Prop
  | _, [] => True
  | w, c :: h => ok w c ∧ OkHist kit isAttr ok (w.step kit isAttr c).1 h

theorem namedCircs_exec {kit : Kit C B A R} {isAttr : String → Bool} {N : ℕ → List Gate → Prop}
    {Q : String → List Gate → B → Prop} {ok : World V M C B → Cmd V M C A → Prop}
    (hr : NamedRules kit isAttr N Q ok) (h : List (Cmd V M C A)) : ∀ w : World V M C B, w.WF → NamedCircs N Q w →
    OkHist kit isAttr ok w h → NamedCircs N Q (w.exec kit isAttr h) := by
  induction h with
  | nil => intro w _ hw _; exact hw
  | cons c h ih =>
    intro w hwf hw hok
    exact ih _ (frame_step kit isAttr hwf c).wf (namedCircs_step hr hwf hw c hok.1) hok.2

theorem allCircs_exec {kit : Kit C B A R} {isAttr : String → Bool} {N : ℕ → List Gate → Prop}
    {Q : List Gate → B → Prop} {ok : World V M C B → Cmd V M C A → Prop}
    (hr : InvRules kit isAttr N Q ok) (h : List (Cmd V M C A)) : ∀ w : World V M C B, w.WF → AllCircs N Q w →
    OkHist kit isAttr ok w h → AllCircs N Q (w.exec kit isAttr h) := by
  induction h with
  | nil => intro w _ hw _; exact hw
  | cons c h ih =>
    intro w hwf hw hok
    exact ih _ (frame_step kit isAttr hwf c).wf (allCircs_step hr hwf hw c hok.1) hok.2

theorem allCircs_start {N : ℕ → List Gate → Prop} {Q : List Gate → B → Prop} (b : B) (reg : Registry V M C) :
    AllCircs N Q (World.start b reg) := by
  intro j hj; simp [World.start] at hj

end

end Blueqat
