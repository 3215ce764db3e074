import Verif.Backend
import Verif.NumpyRefine

/-!
# C11, C60: fallback resolution
-/

set_option linter.unusedSimpArgs false
set_option linter.unusedVariables false
set_option linter.unreachableTactic false
set_option linter.unusedTactic false

namespace Blueqat

open Spec

/-! ## C60 -/

theorem foldlM_append_except {σ α : Type} (f : σ → α → Except PyErr σ) (a b : List α) (s : σ) :
    (a ++ b).foldlM f s = match a.foldlM f s with
      | .error e => .error e
      | .ok s => b.foldlM f s := by
  rw [List.foldlM_append]
  cases a.foldlM f s <;> rfl

theorem foldlM_cons_except {σ α : Type} (f : σ → α → Except PyErr σ) (x : α) (b : List α) (s : σ) :
    (x :: b).foldlM f s = match f s x with
      | .error e => .error e
      | .ok s => b.foldlM f s := by
  rw [List.foldlM_cons]
  cases f s x <;> rfl

/-- Execute a list of gates for which the backend has an action; a gate without one stops with
NotImplementedError. -/
def runNative {σ : Type} (act : Gate → Option (σ → Except PyErr σ)) (s : σ) (g : Gate) : Except PyErr σ :=
  match act g with
  | some a => a s
  | none => .error .notImplementedError

theorem concatM_run {σ : Type} (act : Gate → Option (σ → Except PyErr σ)) (n fuel : ℕ)
    (ih : ∀ g s, match resolveGate (fun g => (act g).isSome) n fuel g with
      | .ok fl => (∀ g' ∈ fl, (act g').isSome) ∧ runGate act n fuel g s = fl.foldlM (runNative act) s
      | .error _ => ∃ e, runGate act n fuel g s = .error e) (gs : List Gate) : ∀ s,
    match concatM (resolveGate (fun g => (act g).isSome) n fuel) gs with
      | .ok fl => (∀ g' ∈ fl, (act g').isSome) ∧
          gs.foldlM (fun s g => runGate act n fuel g s) s = fl.foldlM (runNative act) s
      | .error _ => ∃ e, gs.foldlM (fun s g => runGate act n fuel g s) s = .error e := by
  induction gs with
  | nil => intro s; exact ⟨by simp, rfl⟩
  | cons g gs ihl =>
    intro s
    have h1 := ih g s
    simp only [concatM]
    simp only [foldlM_cons_except]
    cases hr : resolveGate (fun g => (act g).isSome) n fuel g with
    | error e =>
      rw [hr] at h1
      obtain ⟨e', he'⟩ := h1
      exact ⟨e', by rw [he']⟩
    | ok fl =>
      rw [hr] at h1
      obtain ⟨ha, hrun⟩ := h1
      cases hc : concatM (resolveGate (fun g => (act g).isSome) n fuel) gs with
      | error e =>
        simp only
        rw [hrun]
        cases hf : fl.foldlM (runNative act) s with
        | error e' => exact ⟨e', rfl⟩
        | ok s' =>
          have := ihl s'
          rw [hc] at this
          exact this
      | ok fr =>
        have hall : ∀ g' ∈ fl ++ fr, (act g').isSome := by
          intro g' hg'
          rcases List.mem_append.1 hg' with h | h
          · exact ha g' h
          · have := ihl s; rw [hc] at this; exact this.1 g' h
        refine ⟨hall, ?_⟩
        rw [foldlM_append_except, hrun]
        cases hf : fl.foldlM (runNative act) s with
        | error e' => rfl
        | ok s' =>
          have := ihl s'
          rw [hc] at this
          exact this.2

theorem resolveGate_run {σ : Type} (act : Gate → Option (σ → Except PyErr σ)) (n fuel : ℕ) : ∀ g s,
    match resolveGate (fun g => (act g).isSome) n fuel g with
      | .ok fl => (∀ g' ∈ fl, (act g').isSome) ∧ runGate act n fuel g s = fl.foldlM (runNative act) s
      | .error _ => ∃ e, runGate act n fuel g s = .error e := by
  induction fuel with
  | zero => intro g s; exact ⟨_, rfl⟩
  | succ fuel ih =>
    intro g s
    rcases Option.eq_none_or_eq_some (act g) with ha | ⟨a, ha⟩
    · have h1 : resolveGate (fun g => (act g).isSome) n (fuel + 1) g = match g.fallback n with
          | .error e => .error e
          | .ok gs => concatM (resolveGate (fun g => (act g).isSome) n fuel) gs := by
        simp only [resolveGate, ha, Option.isSome_none, Bool.false_eq_true, if_false]
        cases g.fallback n <;> rfl
      have h2 : runGate act n (fuel + 1) g s = match g.fallback n with
          | .error e => .error e
          | .ok gs => gs.foldlM (fun s g' => runGate act n fuel g' s) s := by
        simp only [runGate, ha]
        cases g.fallback n <;> rfl
      rw [h1, h2]
      cases hf : g.fallback n with
      | error e => exact ⟨e, rfl⟩
      | ok gs => exact concatM_run act n fuel ih gs s
    · have h1 : resolveGate (fun g => (act g).isSome) n (fuel + 1) g = .ok [g] := by
        simp only [resolveGate, ha, Option.isSome_some, if_true]
      have h2 : runGate act n (fuel + 1) g s = a s := by simp only [runGate, ha]
      rw [h1, h2]
      refine ⟨by simp [ha], ?_⟩
      rw [foldlM_cons_except]
      simp only [runNative, ha, List.foldlM_nil]
      cases a s <;> rfl

/-- C60: for any backend (any table of actions on any context type), any gates, any context and any depth limit:
if fallback resolution succeeds, its result contains only gates the backend implements and running them one by
one gives exactly the result (or the exception) of running the original list with fallbacks on the fly; if
resolution raises, so does the run. -/
theorem C60_flattened_execution {σ : Type} (act : Gate → Option (σ → Except PyErr σ)) (n fuel : ℕ)
    (gates : List Gate) (ctx : σ) :
    (∀ flat, resolveFallback (fun g => (act g).isSome) n fuel gates = .ok flat →
      (∀ g ∈ flat, ∃ a, act g = some a) ∧ runGates act n fuel gates ctx = flat.foldlM (runNative act) ctx) ∧
    (∀ e, resolveFallback (fun g => (act g).isSome) n fuel gates = .error e →
      ∃ e', runGates act n fuel gates ctx = .error e') := by
  have h := concatM_run act n fuel (resolveGate_run act n fuel) gates ctx
  constructor
  · intro flat hf
    simp only [resolveFallback] at hf
    rw [hf] at h
    exact ⟨fun g hg => Option.isSome_iff_exists.1 (h.1 g hg), h.2⟩
  · intro e hf
    simp only [resolveFallback] at hf
    rw [hf] at h
    exact h

/-- `swap[0, 1]` on the numpy backend resolves to three `cx`. -/
example : resolveFallback npHas 2 recursionLimit [on2 .swap 0 1] =
    .ok [on2 .cx 0 1, on2 .cx 1 0, on2 .cx 0 1] := rfl

/-! ## C11 -/

/-- The table of actions of the numpy backend and `npHas` agree. -/
theorem npAction_has (n : ℕ) (g : Gate) : (npAction n g).isSome = npHas g := by
  rcases g with k | k | k | _ | _
  · cases k <;> rfl
  · cases k <;> rfl
  · cases k <;> rfl
  · rfl
  · rfl

/-- The backend implements every gate class that has no fallback, except possibly the CCZ gate, and the CCZ gate
if `ccz`. -/
def Covers (has : Gate → Bool) (ccz : Bool) : Prop :=
  ∀ g, has g = false → g.hasFallback = true ∨ (ccz = false ∧ ∃ T, g = .g3 .ccz T)

def NotCCZ (g : Gate) : Prop := ∀ T, g ≠ .g3 .ccz T

theorem fallback_notCCZ {g : Gate} {n : ℕ} {gs : List Gate} (h : g.fallback n = .ok gs) : ∀ g' ∈ gs, NotCCZ g' := by
  have hn1 : ∀ k t, NotCCZ (on1 k t) := by intro k t T; simp [on1]
  have hn2 : ∀ k c t, NotCCZ (on2 k c t) := by intro k c t T; simp [on2]
  cases g with
  | measure T => simp [Gate.fallback] at h
  | reset T => simp [Gate.fallback] at h
  | g3 k T =>
    cases k with
    | ccz => simp [Gate.fallback] at h
    | ccx =>
      simp only [Gate.fallback] at h
      cases hu : unpack3 T with
      | error e => rw [hu] at h; cases h
      | ok p =>
        rw [hu] at h; cases h
        simp only [toffoliFallback, onItem, onItems]
        intro g' hg' T'
        simp at hg'
        rcases hg' with rfl | rfl | rfl | rfl | rfl | rfl | rfl | rfl | rfl | rfl | rfl | rfl | rfl | rfl | rfl <;> simp
    | cswap =>
      simp only [Gate.fallback] at h
      cases hu : unpack3 T with
      | error e => rw [hu] at h; cases h
      | ok p =>
        rw [hu] at h; cases h
        simp only [onItems]
        intro g' hg' T'
        simp at hg'
        rcases hg' with rfl | rfl | rfl <;> simp
  | g2 k T =>
    simp only [Gate.fallback] at h
    cases hf : k.fallbackOn with
    | none => rw [hf] at h; cases h
    | some f =>
      rw [hf] at h
      simp only at h
      cases hq : qubitPairs T n with
      | error e => rw [hq] at h; cases h
      | ok ps =>
        rw [hq] at h; cases h
        intro g' hg
        obtain ⟨p, _, hp⟩ := List.mem_flatMap.1 hg
        have : ∀ c t, ∀ g' ∈ f c t, NotCCZ g' := by
          intro c t
          cases k <;> simp [G2.fallbackOn] at hf <;> subst hf <;> simp [hn1, hn2]
        exact this _ _ g' hp
  | g1 k T =>
    by_cases hi : k = .i
    · subst hi; simp [Gate.fallback] at h; subst h; simp
    · have h' : (match k.fallbackOn with
          | none => Except.error .notImplementedError
          | some f => match (slicing T n).toList with
            | .error e => Except.error e
            | .ok ts => Except.ok (ts.flatMap f)) = Except.ok gs := by
        cases k <;> first | exact absurd rfl hi | exact h
      cases hf : k.fallbackOn with
      | none => rw [hf] at h'; cases h'
      | some f =>
        rw [hf] at h'
        simp only at h'
        cases hq : (slicing T n).toList with
        | error e => rw [hq] at h'; cases h'
        | ok ps =>
          rw [hq] at h'; cases h'
          intro g' hg
          obtain ⟨p, _, hp⟩ := List.mem_flatMap.1 hg
          have : ∀ t, ∀ g' ∈ f t, NotCCZ g' := by
            intro t
            cases k <;> simp [G1.fallbackOn] at hf <;> subst hf <;> simp [hn1, hn2]
          exact this _ g' hp

theorem concatM_ok {α β : Type} (f : α → Except PyErr (List β)) (P : β → Prop) (xs : List α)
    (h : ∀ x ∈ xs, ∃ l, f x = .ok l ∧ ∀ b ∈ l, P b) : ∃ l, concatM f xs = .ok l ∧ ∀ b ∈ l, P b := by
  induction xs with
  | nil => exact ⟨[], rfl, by simp⟩
  | cons x xs ih =>
    obtain ⟨l, h1, h2⟩ := h x (by simp)
    obtain ⟨r, h3, h4⟩ := ih (fun x hx => h x (by simp [hx]))
    refine ⟨l ++ r, by simp [concatM, h1, h3], fun b hb => ?_⟩
    rcases List.mem_append.1 hb with hb | hb
    · exact h2 b hb
    · exact h4 b hb

theorem concatM_err {α β : Type} (f : α → Except PyErr (List β)) (P : β → Prop) (E : PyErr → Prop) (xs : List α)
    (h : ∀ x ∈ xs, (∃ l, f x = .ok l ∧ ∀ b ∈ l, P b) ∨ ∃ e, f x = .error e ∧ E e) :
    (∃ l, concatM f xs = .ok l ∧ ∀ b ∈ l, P b) ∨ ∃ e, concatM f xs = .error e ∧ E e := by
  induction xs with
  | nil => exact .inl ⟨[], rfl, by simp⟩
  | cons x xs ih =>
    rcases h x (by simp) with ⟨l, h1, h2⟩ | ⟨e, h1, h2⟩
    · rcases ih (fun x hx => h x (by simp [hx])) with ⟨r, h3, h4⟩ | ⟨e, h3, h4⟩
      · refine .inl ⟨l ++ r, by simp [concatM, h1, h3], fun b hb => ?_⟩
        rcases List.mem_append.1 hb with hb | hb
        · exact h2 b hb
        · exact h4 b hb
      · exact .inr ⟨e, by simp [concatM, h1, h3], h4⟩
    · exact .inr ⟨e, by simp [concatM, h1], h2⟩

/-- The exceptions of malformed subscripts. -/
def TargetError (e : PyErr) : Prop := e = .valueError ∨ e = .typeError

theorem slicing_targetError (T : Targets) (n : ℕ) (e : PyErr) (h : (slicing T n).toList = .error e) : TargetError e := by
  have hs : ∀ a e, (slicingSinglevalue a n).err = some e → TargetError e := by
    intro a e h
    cases a with
    | int i => simp only [slicingSinglevalue] at h; split_ifs at h <;> simp at h
    | bad => simp [slicingSinglevalue] at h; exact .inr h.symm
    | slice a b c =>
      simp only [slicingSinglevalue] at h
      cases hi : sliceIndices a b c n with
      | error e' =>
        rw [hi] at h
        simp only [Option.some.injEq] at h
        subst h
        simp only [sliceIndices] at hi
        split_ifs at hi <;> simp at hi
        all_goals exact .inl hi.symm
      | ok p =>
        rw [hi] at h
        obtain ⟨x, y, z⟩ := p
        simp only at h
        split_ifs at h <;> simp at h
  have hfe : ∀ {α : Type} (f : α → Gen ℤ) (xs : List α), (∀ x e, (f x).err = some e → TargetError e) →
      ∀ e, (Gen.forEach f xs).err = some e → TargetError e := by
    intro α f xs hf
    induction xs with
    | nil => intro e h; simp [Gen.forEach] at h
    | cons x xs ih =>
      intro e h
      simp only [Gen.forEach, Gen.append] at h
      cases hx : (f x).err with
      | none => rw [hx] at h; exact ih e h
      | some e' => rw [hx] at h; simp at h; subst h; exact hf x _ hx
  have : ∃ e', (slicing T n).err = some e' ∧ e' = e := by
    simp only [Gen.toList] at h
    cases he : (slicing T n).err with
    | none => rw [he] at h; cases h
    | some e' => rw [he] at h; exact ⟨e', rfl, by simpa using h⟩
  obtain ⟨e', he, rfl⟩ := this
  cases T with
  | one a => exact hs a e' he
  | tup xs =>
    refine hfe _ xs (fun x e h => ?_) e' he
    cases x with
    | atom a => exact hs a e h
    | tup as => simp [slicingItemAsSingle] at h; exact .inr h.symm

theorem slicingItem_targetError (x : Item) (n : ℕ) (e : PyErr) (h : (slicingItem x n).toList = .error e) : TargetError e := by
  have := slicing_targetError x.toTargets n e
  cases x with
  | atom a => exact this h
  | tup as =>
    apply this
    have : ∀ as : List Atom, Gen.forEach (fun x => slicingItemAsSingle x n) (as.map Item.atom) =
        Gen.forEach (fun a => slicingSinglevalue a n) as := by
      intro as
      induction as with
      | nil => rfl
      | cons a as ih => simp only [List.map_cons, Gen.forEach, ih]; rfl
    simp only [Item.toTargets, slicing, this]; exact h

theorem qubitPairs_targetError (T : Targets) (n : ℕ) (e : PyErr) (h : qubitPairs T n = .error e) : TargetError e := by
  match T, h with
  | .one a, h => cases h; exact .inl rfl
  | .tup [], h => cases h; exact .inl rfl
  | .tup [_], h => cases h; exact .inl rfl
  | .tup [a, b], h =>
    simp only [qubitPairs] at h
    cases h1 : (slicingItem a n).toList with
    | error e' => rw [h1] at h; cases h; exact slicingItem_targetError a n _ h1
    | ok cs =>
      rw [h1] at h
      cases h2 : (slicingItem b n).toList with
      | error e' => rw [h2] at h; cases h; exact slicingItem_targetError b n _ h2
      | ok ts =>
        rw [h2] at h
        simp only at h
        split_ifs at h <;> (cases h; exact .inl rfl)
  | .tup (_ :: _ :: _ :: _), h => cases h; exact .inl rfl

theorem unpack3_targetError (T : Targets) (e : PyErr) (h : unpack3 T = .error e) : TargetError e := by
  match T, h with
  | .one a, h => simp [unpack3] at h; subst h; exact .inr rfl
  | .tup [], h => cases h; exact .inl rfl
  | .tup [_], h => cases h; exact .inl rfl
  | .tup [_, _], h => cases h; exact .inl rfl
  | .tup [_, _, _], h => cases h
  | .tup (_ :: _ :: _ :: _ :: _), h => cases h; exact .inl rfl

theorem fallback_error {g : Gate} {n : ℕ} {e : PyErr} (hh : g.hasFallback = true) (h : g.fallback n = .error e) :
    TargetError e := by
  cases g with
  | measure T => simp [Gate.hasFallback] at hh
  | reset T => simp [Gate.hasFallback] at hh
  | g3 k T =>
    cases k with
    | ccz => simp [Gate.hasFallback] at hh
    | ccx =>
      simp only [Gate.fallback] at h
      cases hu : unpack3 T with
      | error e' => rw [hu] at h; cases h; exact unpack3_targetError T _ hu
      | ok p => rw [hu] at h; cases h
    | cswap =>
      simp only [Gate.fallback] at h
      cases hu : unpack3 T with
      | error e' => rw [hu] at h; cases h; exact unpack3_targetError T _ hu
      | ok p => rw [hu] at h; cases h
  | g2 k T =>
    simp only [Gate.fallback] at h
    simp only [Gate.hasFallback] at hh
    cases hf : k.fallbackOn with
    | none => rw [hf] at hh; cases hh
    | some f =>
      rw [hf] at h
      simp only at h
      cases hq : qubitPairs T n with
      | error e' => rw [hq] at h; cases h; exact qubitPairs_targetError T n _ hq
      | ok ps => rw [hq] at h; cases h
  | g1 k T =>
    by_cases hi : k = .i
    · subst hi; simp [Gate.fallback] at h
    · have h' : (match k.fallbackOn with
          | none => Except.error .notImplementedError
          | some f => match (slicing T n).toList with
            | .error e => Except.error e
            | .ok ts => Except.ok (ts.flatMap f)) = Except.error e := by
        cases k <;> first | exact absurd rfl hi | exact h
      have hh' : k.fallbackOn.isSome = true := by
        cases k <;> first | exact absurd rfl hi | exact hh
      cases hf : k.fallbackOn with
      | none => rw [hf] at hh'; cases hh'
      | some f =>
        rw [hf] at h'
        simp only at h'
        cases hq : (slicing T n).toList with
        | error e' => rw [hq] at h'; cases h'; exact slicing_targetError T n _ hq
        | ok ps => rw [hq] at h'; cases h'

theorem resolveGate_total {has : Gate → Bool} {ccz : Bool} (hc : Covers has ccz) (n : ℕ) (fuel : ℕ) : ∀ g : Gate,
    g.rank < fuel → (ccz = true ∨ NotCCZ g) →
    (∃ flat, resolveGate has n fuel g = .ok flat ∧ ∀ g' ∈ flat, has g' = true) ∨
      ∃ e, resolveGate has n fuel g = .error e ∧ TargetError e := by
  induction fuel with
  | zero => intro g h; omega
  | succ fuel ih =>
    intro g hr hz
    simp only [resolveGate]
    by_cases hg : has g = true
    · simp only [hg, if_true]
      exact .inl ⟨[g], rfl, by simp [hg]⟩
    · simp only [hg, if_false]
      have hfb : g.hasFallback = true := by
        rcases hc g (by simpa using hg) with h | ⟨h1, T, h2⟩
        · exact h
        · rcases hz with hz | hz
          · rw [h1] at hz; cases hz
          · exact absurd h2 (hz T)
      cases hf : g.fallback n with
      | error e => exact .inr ⟨e, rfl, fallback_error hfb hf⟩
      | ok gs =>
        have hrk := rank_fallback hf
        have hnc := fallback_notCCZ hf
        exact concatM_err _ _ _ gs (fun g' hg' => ih g' (by have := hrk g' hg'; omega) (.inr (hnc g' hg')))

theorem resolveGate_ok {has : Gate → Bool} {ccz : Bool} (hc : Covers has ccz) (n : ℕ) (fuel : ℕ) : ∀ g : Gate,
    g.rank < fuel → (ccz = true ∨ NotCCZ g) → ∀ es, GateDenotes n g es → (∀ e ∈ es, e.Valid n) →
    ∃ flat, resolveGate has n fuel g = .ok flat ∧ ∀ g' ∈ flat, has g' = true := by
  induction fuel with
  | zero => intro g h; omega
  | succ fuel ih =>
    intro g hr hz es hd hv
    simp only [resolveGate]
    by_cases hg : has g = true
    · simp only [hg, if_true]
      exact ⟨[g], rfl, by simp [hg]⟩
    · simp only [hg, if_false]
      have hfb : g.hasFallback = true := by
        rcases hc g (by simpa using hg) with h | ⟨h1, T, h2⟩
        · exact h
        · rcases hz with hz | hz
          · rw [h1] at hz; cases hz
          · exact absurd h2 (hz T)
      obtain ⟨gs, hf⟩ := fallback_ok hfb hd
      rw [hf]
      have hrk := rank_fallback hf
      have hnc := fallback_notCCZ hf
      have hden : ∃ fs, GatesDenote n gs fs ∧ ∀ e ∈ fs, e.Valid n := by
        by_cases hph : ∃ θ T, g = .g1 (.phase θ) T
        · obtain ⟨θ, T, rfl⟩ := hph
          obtain ⟨L, hL, rfl⟩ := hd
          rw [← slicing_eq_iff, ← toList_eq_ok_iff] at hL
          simp only [Gate.fallback, G1.fallbackOn, hL, Except.ok.injEq] at hf
          subst hf
          have : ∀ L : List ℕ, (∀ q ∈ L, q < n) → ∃ fs, GatesDenote n ((L.map (fun q : ℕ => (q : ℤ))).flatMap
              (fun t => [on1 (.rz θ) t])) fs ∧ ∀ e ∈ fs, e.Valid n := by
            intro L
            induction L with
            | nil => intro _; exact ⟨[], rfl, by simp⟩
            | cons q L ihL =>
              intro hq
              obtain ⟨fs, h1, h2⟩ := ihL (fun q hq' => hq q (by simp [hq']))
              refine ⟨.one (.rz θ) q :: fs, ⟨[.one (.rz θ) q], fs, ⟨[q], ?_, rfl⟩, h1, rfl⟩, ?_⟩
              · simp only [TargetsDenote, Targets.ofInt, AtomDenotes, List.map_cons, List.map_nil, pyIndex]
                rw [if_neg (by omega)]
              · intro e he
                rcases List.mem_cons.1 he with rfl | he
                · exact hq q (by simp)
                · exact h2 e he
          exact this L (fun q hq => hv (.one (.phase θ) q) (List.mem_map.2 ⟨q, hq, rfl⟩))
        · obtain ⟨fs, h1, h2, -⟩ := fallback_implements phSim g es gs hd hv hf
            (fun θ T h => hph ⟨θ, T, h⟩) (fun lam T h => rfl)
          exact ⟨fs, h1, fun e he => (h2 e he).1⟩
      obtain ⟨fs, hfs, hfv⟩ := hden
      have hsplit : ∀ (gs : List Gate) (fs : List Elem), GatesDenote n gs fs → (∀ e ∈ fs, e.Valid n) →
          ∀ g' ∈ gs, ∃ es, GateDenotes n g' es ∧ ∀ e ∈ es, e.Valid n := by
        intro gs
        induction gs with
        | nil => intro fs _ _ g' hg'; simp at hg'
        | cons g0 gs ihg =>
          rintro fs ⟨e1, e2, h1, h2, rfl⟩ hv g' hg'
          rcases List.mem_cons.1 hg' with rfl | hg'
          · exact ⟨e1, h1, fun e he => hv e (by simp [he])⟩
          · exact ihg e2 h2 (fun e he => hv e (by simp [he])) g' hg'
      refine concatM_ok _ _ gs (fun g' hg' => ?_)
      obtain ⟨es', hd', hv'⟩ := hsplit gs fs hfs hfv g' hg'
      exact ih g' (by have := hrk g' hg'; omega) (.inr (hnc g' hg')) es' hd' hv'

theorem covers_np : Covers npHas true := by
  intro g hg
  left
  rcases g with k | k | k | _ | _ <;> first
    | (cases k <;> simp [npHas, Gate.hasFallback, G1.fallbackOn, G2.fallbackOn] at hg ⊢)
    | simp [npHas] at hg

theorem covers_nb : Covers nbHas true := by
  intro g hg
  left
  rcases g with k | k | k | _ | _ <;> first
    | (cases k <;> simp [nbHas, Gate.hasFallback, G1.fallbackOn, G2.fallbackOn] at hg ⊢)
    | simp [nbHas] at hg

theorem covers_sy : Covers syHas false := by
  intro g hg
  rcases g with k | k | k | _ | _ <;> first
    | (cases k <;> simp [syHas, Gate.hasFallback, G1.fallbackOn, G2.fallbackOn] at hg ⊢)
    | simp [syHas] at hg

theorem covers_qa : Covers qaHas false := by
  intro g hg
  rcases g with k | k | k | _ | _ <;> first
    | (cases k <;> simp [qaHas, Gate.hasFallback, G1.fallbackOn, G2.fallbackOn] at hg ⊢)
    | simp [qaHas] at hg

/-- The four backends: their tables of implemented gates, and whether the CCZ class (which no circuit method
creates, the gate set has no name for it) is among the supported ones. -/
inductive BackendTable : (Gate → Bool) → Bool → Prop
  | numpy : BackendTable npHas true
  | numba : BackendTable nbHas true
  | sympy : BackendTable syHas false
  | qasm : BackendTable qaHas false

/-- C11: on each of the four backends, for every gate object (any class that a circuit can create, any
parameters, any subscript, even a malformed one) and register size, fallback resolution terminates within 5
nested calls and either yields only gates the backend implements or raises ValueError/TypeError because of the
subscript. It never raises NotImplementedError or RecursionError. -/
theorem C11_resolution_terminates (has : Gate → Bool) (ccz : Bool) (hb : BackendTable has ccz) (n : ℕ) (g : Gate)
    (hg : ccz = true ∨ ∀ T, g ≠ .g3 .ccz T) (fuel : ℕ) (hf : 5 ≤ fuel) :
    (∃ flat, resolveFallback has n fuel [g] = .ok flat ∧ ∀ g' ∈ flat, has g' = true) ∨
      resolveFallback has n fuel [g] = .error .valueError ∨ resolveFallback has n fuel [g] = .error .typeError := by
  have hc : Covers has ccz := by
    cases hb
    · exact covers_np
    · exact covers_nb
    · exact covers_sy
    · exact covers_qa
  have hone := concatM_err (resolveGate has n fuel) (fun g' => has g' = true) TargetError [g] (by
    intro x hx
    simp only [List.mem_singleton] at hx
    subst hx
    exact resolveGate_total hc n fuel x (by have := rank_le x; omega) hg)
  rcases hone with h | ⟨e, h1, h2 | h2⟩
  · exact .inl h
  · subst h2; exact .inr (.inl h1)
  · subst h2; exact .inr (.inr h1)

/-- C11: a gate whose subscript denotes valid qubits is always resolved. -/
theorem C11_valid_gate_runs (has : Gate → Bool) (ccz : Bool) (hb : BackendTable has ccz) (n : ℕ) (g : Gate)
    (hg : ccz = true ∨ ∀ T, g ≠ .g3 .ccz T) (es : List Elem) (hd : GateDenotes n g es) (hv : ∀ e ∈ es, e.Valid n)
    (fuel : ℕ) (hf : 5 ≤ fuel) :
    ∃ flat, resolveFallback has n fuel [g] = .ok flat ∧ ∀ g' ∈ flat, has g' = true := by
  have hc : Covers has ccz := by
    cases hb
    · exact covers_np
    · exact covers_nb
    · exact covers_sy
    · exact covers_qa
  refine concatM_ok (resolveGate has n fuel) _ [g] (fun x hx => ?_)
  simp only [List.mem_singleton] at hx
  subst hx
  exact resolveGate_ok hc n fuel x (by have := rank_le x; omega) hg es hd hv

/-- The controlled-swap gate `cswap[0, 1, 2]` satisfies the hypotheses on the sympy backend. -/
example : BackendTable syHas false ∧
    GateDenotes 3 (.g3 .cswap (.tup [.atom (.int 0), .atom (.int 1), .atom (.int 2)])) [.three .cswap 0 1 2] ∧
    (Elem.three .cswap 0 1 2).Valid 3 :=
  ⟨.sympy, ⟨0, 1, 2, rfl, rfl⟩, by simp [Elem.Valid]⟩

end Blueqat
