import Verif.Spec.Wrapper
import Verif.AppendLemmas
import Mathlib.Tactic.Cases

/-!
# Property C110: gate wrappers can be kept and used again
-/

set_option linter.unusedSimpArgs false
set_option linter.unusedVariables false

namespace Blueqat

open Spec (fetched givenArgs lastSubscript written argList opsGivenArgs opsLastSubscript Plain GrownTo)

/-- The start of a program: some circuits, no wrapper fetched yet. -/
def WrapWorld.start (c0 : ℕ → WrapCirc) : WrapWorld := ⟨c0, []⟩

/-- What the world holds after a history (newest action first). -/
structure WrapInv (c0 : ℕ → WrapCirc) (h : List WrapCmd) (w : WrapWorld) : Prop where
  len : w.wraps.length = (fetched h).length
  wrap : ∀ k i name, (fetched h)[k]? = some (i, name) →
    ∃ cls, gateClass name = some cls ∧ w.wraps[k]? = some (GateWrapper.mk i (lastSubscript h k) name cls (givenArgs h k))
  ops : ∀ i, (w.circs i).ops = (c0 i).ops ++ written h i

theorem fetched_none {c0 : ℕ → WrapCirc} {h : List WrapCmd} {w : WrapWorld} (inv : WrapInv c0 h w) {k : ℕ}
    (hk : w.wraps[k]? = none) : (fetched h)[k]? = none := by
  rw [List.getElem?_eq_none_iff] at hk ⊢
  rw [← inv.len]; exact hk

theorem fetched_some {c0 : ℕ → WrapCirc} {h : List WrapCmd} {w : WrapWorld} (inv : WrapInv c0 h w) {k : ℕ} {g : GateWrapper}
    (hk : w.wraps[k]? = some g) : k < (fetched h).length ∧ (fetched h)[k]? = some (g.circ, g.name) ∧ gateClass g.name = some g.cls ∧
      g.target = lastSubscript h k ∧ g.call = givenArgs h k := by
  have hlt : k < (fetched h).length := by
    rw [← inv.len]; exact (List.getElem?_eq_some_iff.1 hk).1
  have hf : (fetched h)[k]? = some (fetched h)[k] := List.getElem?_eq_getElem hlt
  obtain ⟨cls, hc, hw⟩ := inv.wrap k (fetched h)[k].1 (fetched h)[k].2 hf
  rw [hk] at hw
  cases hw
  exact ⟨hlt, hf, hc, rfl, rfl⟩

/-- No arguments and no subscript belong to a wrapper that is not fetched yet. -/
theorem unfetched (h : List WrapCmd) (k : ℕ) (hk : (fetched h).length ≤ k) :
    givenArgs h k = ⟨[], []⟩ ∧ lastSubscript h k = none := by
  induction h with
  | nil => exact ⟨rfl, rfl⟩
  | cons c older ih =>
    cases c with
    | attr i name =>
      simp only [fetched] at hk
      have : (fetched older).length ≤ k := by
        split_ifs at hk
        · rw [List.length_append] at hk; omega
        · exact hk
      exact ih this
    | call j c =>
      simp only [fetched] at hk
      simp only [givenArgs, lastSubscript, Nat.not_lt.2 hk, and_false, if_false]
      exact ih hk
    | item j T =>
      simp only [fetched] at hk
      simp only [givenArgs, lastSubscript, Nat.not_lt.2 hk, and_false, if_false]
      exact ih hk

/-- The subscript of a wrapper in terms of the gate its name stands for. -/
theorem getItem_callGate (g : GateWrapper) (hc : gateClass g.name = some g.cls) (q : WrapCirc) (T : Targets) :
    (∀ e, callGate g.name g.call T = .error e → g.getItem q T = (q, some e)) ∧
    (∀ o, callGate g.name g.call T = .ok o →
      (∀ e, getMaximumIndex T = .error e → g.getItem q T = (⟨q.n, q.ops ++ [o]⟩, some e)) ∧
      (∀ mx, getMaximumIndex T = .ok mx → g.getItem q T = (⟨newQubits mx q.n, q.ops ++ [o]⟩, none))) := by
  simp only [callGate, hc]
  refine ⟨fun e he => by simp only [GateWrapper.getItem, he], fun o ho => ⟨fun e he => ?_, fun mx he => ?_⟩⟩ <;>
    simp only [GateWrapper.getItem, ho, he]

theorem getItem_ops (g : GateWrapper) (hc : gateClass g.name = some g.cls) (q : WrapCirc) (T : Targets) :
    (g.getItem q T).1.ops = q.ops ++ (callGate g.name g.call T).toOption.toList := by
  obtain ⟨h1, h2⟩ := getItem_callGate g hc q T
  cases hm : callGate g.name g.call T with
  | error e => rw [h1 e hm]; simp [Except.toOption]
  | ok o =>
    cases hx : getMaximumIndex T with
    | error e => rw [(h2 o hm).1 e hx]; simp [Except.toOption]
    | ok mx => rw [(h2 o hm).2 mx hx]; simp [Except.toOption]

theorem wrapInv_step {c0 : ℕ → WrapCirc} {h : List WrapCmd} {w : WrapWorld} (inv : WrapInv c0 h w) (c : WrapCmd) :
    WrapInv c0 (c :: h) (w.step c).1 := by
  cases c with
  | attr i name =>
    cases hn : gateClass name with
    | none =>
      simp only [WrapWorld.step, hn]
      exact ⟨by simpa [fetched, hn] using inv.len, by simpa [fetched, hn, lastSubscript, givenArgs] using inv.wrap, inv.ops⟩
    | some cls =>
      simp only [WrapWorld.step, hn]
      refine ⟨by simp [fetched, hn, inv.len], fun k j nm hk => ?_, inv.ops⟩
      simp only [fetched, hn, Option.isSome_some, if_true] at hk
      simp only [lastSubscript, givenArgs]
      by_cases hlt : k < (fetched h).length
      · rw [List.getElem?_append_left hlt] at hk
        rw [List.getElem?_append_left (by rw [inv.len]; exact hlt)]
        exact inv.wrap k j nm hk
      · obtain ⟨ha, hs⟩ := unfetched h k (Nat.le_of_not_lt hlt)
        rw [List.getElem?_append_right (Nat.le_of_not_lt hlt)] at hk
        rw [List.getElem?_append_right (by rw [inv.len]; exact Nat.le_of_not_lt hlt), inv.len]
        have h0 : k - (fetched h).length = 0 := by
          by_contra hne
          obtain ⟨m, hm⟩ := Nat.exists_eq_succ_of_ne_zero hne
          rw [hm] at hk; simp at hk
        rw [h0] at hk ⊢
        simp only [List.getElem?_cons_zero, Option.some.injEq, Prod.mk.injEq] at hk
        obtain ⟨rfl, rfl⟩ := hk
        exact ⟨cls, hn, by rw [ha, hs]; rfl⟩
  | call k c =>
    cases hk : w.wraps[k]? with
    | none =>
      have hf := fetched_none inv hk
      have hge : (fetched h).length ≤ k := List.getElem?_eq_none_iff.1 hf
      simp only [WrapWorld.step, hk]
      refine ⟨inv.len, fun j i nm hj => ?_, inv.ops⟩
      have hjl := (List.getElem?_eq_some_iff.1 hj).1
      have hne : k ≠ j := by rintro rfl; simp only [fetched] at hjl; omega
      simp only [lastSubscript, givenArgs, hne, false_and, if_false]
      exact inv.wrap j i nm hj
    | some g =>
      obtain ⟨hlt, hf, hc, ht, ha⟩ := fetched_some inv hk
      simp only [WrapWorld.step, hk]
      refine ⟨by simpa [fetched] using inv.len, fun j i nm hj => ?_, inv.ops⟩
      simp only [fetched] at hj
      by_cases hkj : k = j
      · subst hkj
        rw [hf] at hj; cases hj
        refine ⟨g.cls, hc, ?_⟩
        rw [List.getElem?_set_self (by rw [inv.len]; exact hlt)]
        simp only [lastSubscript, givenArgs, hlt, and_self, if_true, GateWrapper.setCall, ← ht]
      · rw [List.getElem?_set_ne hkj]
        simp only [lastSubscript, givenArgs, hkj, false_and, if_false]
        exact inv.wrap j i nm hj
  | item k T =>
    cases hk : w.wraps[k]? with
    | none =>
      have hf := fetched_none inv hk
      have hge : (fetched h).length ≤ k := List.getElem?_eq_none_iff.1 hf
      simp only [WrapWorld.step, hk]
      refine ⟨inv.len, fun j i nm hj => ?_, fun i => by simp only [written, hf]; exact inv.ops i⟩
      have hjl := (List.getElem?_eq_some_iff.1 hj).1
      have hne : k ≠ j := by rintro rfl; simp only [fetched] at hjl; omega
      simp only [lastSubscript, givenArgs, hne, false_and, if_false]
      exact inv.wrap j i nm hj
    | some g =>
      obtain ⟨hlt, hf, hc, ht, ha⟩ := fetched_some inv hk
      simp only [WrapWorld.step, hk]
      refine ⟨by simpa [fetched] using inv.len, fun j i nm hj => ?_, fun i => ?_⟩
      · simp only [fetched] at hj
        by_cases hkj : k = j
        · subst hkj
          rw [hf] at hj; cases hj
          refine ⟨g.cls, hc, ?_⟩
          rw [List.getElem?_set_self (by rw [inv.len]; exact hlt)]
          simp only [lastSubscript, givenArgs, hlt, and_self, if_true, ← ha]
        · rw [List.getElem?_set_ne hkj]
          simp only [lastSubscript, givenArgs, hkj, false_and, if_false]
          exact inv.wrap j i nm hj
      · simp only [written, hf]
        by_cases hi : i = g.circ
        · subst hi
          simp only [if_true]
          rw [getItem_ops g hc, inv.ops, ha, List.append_assoc]
        · simp only [hi, Ne.symm hi, if_false]
          exact inv.ops i

theorem wrapInv_exec (c0 : ℕ → WrapCirc) (h : List WrapCmd) : WrapInv c0 h.reverse ((WrapWorld.start c0).exec h) := by
  induction h using List.reverseRecOn with
  | nil => exact ⟨rfl, by simp [fetched], by simp [WrapWorld.start, WrapWorld.exec, written]⟩
  | append_singleton h c ih =>
    rw [List.reverse_append, List.reverse_singleton, List.singleton_append]
    simp only [WrapWorld.exec, List.foldl_append, List.foldl_cons, List.foldl_nil]
    exact wrapInv_step ih c

/-- C110. After any program that fetches, calls and subscripts wrappers, each circuit holds what it held at the start followed by one
gate for each subscript of its own wrappers, in order, with the name of the wrapper and the arguments given to it last. -/
theorem C110_history (c0 : ℕ → WrapCirc) (h : List WrapCmd) (i : ℕ) :
    (((WrapWorld.start c0).exec h).circs i).ops = (c0 i).ops ++ written h.reverse i := (wrapInv_exec c0 h).ops i

/-- C110. A subscript after any program: an exception of the constructor leaves every circuit alone; a subscript that is not made of
integers and slices raises AttributeError, and the gate stays in the circuit (C05); otherwise the register grows to the least size that
contains the indices. No other circuit changes. -/
theorem C110_subscript (c0 : ℕ → WrapCirc) (h : List WrapCmd) (k i : ℕ) (name : String)
    (hk : (fetched h.reverse)[k]? = some (i, name)) (T : Targets) :
    let w := (WrapWorld.start c0).exec h
    let r := w.step (.item k T)
    (∀ e, callGate name (givenArgs h.reverse k) T = .error e → r.2 = some e ∧ r.1.circs = w.circs) ∧
    (∀ o, callGate name (givenArgs h.reverse k) T = .ok o →
      (¬Plain T → r.2 = some .attributeError ∧ r.1.circs i = ⟨(w.circs i).n, (w.circs i).ops ++ [o]⟩) ∧
      (Plain T → r.2 = none ∧ ∃ m, GrownTo (w.circs i).n T m ∧ r.1.circs i = ⟨m, (w.circs i).ops ++ [o]⟩)) ∧
    (∀ j, j ≠ i → r.1.circs j = w.circs j) := by
  intro w r
  have inv : WrapInv c0 h.reverse w := wrapInv_exec c0 h
  obtain ⟨cls, hc, hw⟩ := inv.wrap k i name hk
  have hr : r = (⟨fun j => if j = i then ((⟨i, lastSubscript h.reverse k, name, cls, givenArgs h.reverse k⟩ : GateWrapper).getItem
      (w.circs i) T).1 else w.circs j, w.wraps.set k ⟨i, some T, name, cls, givenArgs h.reverse k⟩⟩,
      ((⟨i, lastSubscript h.reverse k, name, cls, givenArgs h.reverse k⟩ : GateWrapper).getItem (w.circs i) T).2) := by
    simp only [r, WrapWorld.step, hw]
  obtain ⟨h1, h2⟩ := getItem_callGate ⟨i, lastSubscript h.reverse k, name, cls, givenArgs h.reverse k⟩ hc (w.circs i) T
  refine ⟨fun e he => ?_, fun o ho => ⟨fun hp => ?_, fun hp => ?_⟩, fun j hj => by rw [hr]; simp only [hj, if_false]⟩
  · rw [hr, h1 e he]
    refine ⟨rfl, funext fun j => ?_⟩
    by_cases hj : j = i
    · subst hj; simp only [if_true]
    · simp only [hj, if_false]
  · cases hx : getMaximumIndex T with
    | ok mx => exact absurd (getMaximumIndex_ok hx).1 hp
    | error e =>
      have := getMaximumIndex_error hx
      subst this
      rw [hr, (h2 o ho).1 _ hx]
      exact ⟨rfl, by simp only [if_true]⟩
  · obtain ⟨mx, hx⟩ := getMaximumIndex_plain hp
    rw [hr, (h2 o ho).2 _ hx]
    exact ⟨rfl, _, newQubits_grown hx _, by simp only [if_true]⟩

/-- C110. Only a subscript of one of its wrappers changes a circuit; fetching and calling change none. A name of no gate raises
AttributeError. -/
theorem C110_quiet (w : WrapWorld) :
    (∀ i name, (w.step (.attr i name)).1.circs = w.circs ∧
      (w.step (.attr i name)).2 = if (gateClass name).isSome then none else some .attributeError) ∧
    (∀ k c, (w.step (.call k c)).1.circs = w.circs) := by
  refine ⟨fun i name => ?_, fun k c => ?_⟩
  · cases hn : gateClass name <;> simp [WrapWorld.step, hn]
  · cases hk : w.wraps[k]? <;> simp [WrapWorld.step, hk]

/-- `w = a.rx; w(0.5)[0]; w[2]; v = b.h; w(1)[1]; v[0]; w()[0]`: circuit 0 gets `rx(0.5)[0]`, `rx(0.5)[2]` and `rx(1)[1]`, circuit 1 gets
`h[0]`; the last subscript is rejected, as `rx` needs a parameter. -/
def wrapDemo : List WrapCmd :=
  [.attr 0 "rx", .call 0 ⟨[.float 0.5], []⟩, .item 0 (.ofInt 0), .item 0 (.ofInt 2), .attr 1 "h", .call 0 ⟨[.int 1], []⟩,
    .item 0 (.ofInt 1), .item 1 (.ofInt 0), .call 0 ⟨[], []⟩, .item 0 (.ofInt 0)]

example : written wrapDemo.reverse 0 = [⟨"rx", .tup [.float 0.5], [], .ofInt 0⟩, ⟨"rx", .tup [.float 0.5], [], .ofInt 2⟩,
      ⟨"rx", .tup [.int 1], [], .ofInt 1⟩] ∧
    written wrapDemo.reverse 1 = [⟨"h", .tup [], [], .ofInt 0⟩] ∧
    (fetched wrapDemo.reverse)[0]? = some (0, "rx") ∧ givenArgs wrapDemo.reverse 0 = ⟨[], []⟩ := by
  simp [wrapDemo, written, fetched, givenArgs, gateClass, callGate, makeGate, initParams, bindParams, PyDict.has, PyDict.get,
    PyCall.rest, Except.toOption]

/-! ## Text -/

theorem dropLast_paren (s t : String) : dropLastChar (s ++ t ++ ")") = s ++ t := by
  simp [dropLastChar, String.toList_append]

theorem pyJoin_snoc (l : List String) (hl : l ≠ []) (a : String) : pyJoin ", " (l ++ [a]) = pyJoin ", " l ++ ", " ++ a := by
  induction l with
  | nil => exact absurd rfl hl
  | cons x xs ih =>
    cases xs with
    | nil => simp [pyJoin]
    | cons y ys =>
      simp only [List.cons_append, pyJoin] at ih ⊢
      rw [ih (by simp)]
      simp only [String.append_assoc]

/-- C110 (partial; missing: the case of one positional argument together with keywords, see `C110_text_refuted`). The text of a
wrapper is its name, the list of the arguments given last in parentheses, which are left out without arguments, a space and the subscript
used last. One positional argument alone is followed by a comma, as in a Python tuple. -/
theorem C110_text_partial (rep : PyArg → String) (bad : String) (c0 : ℕ → WrapCirc) (h : List WrapCmd) (k i : ℕ) (name : String)
    (hk : (fetched h.reverse)[k]? = some (i, name)) (hc : (givenArgs h.reverse k).args.length = 1 → (givenArgs h.reverse k).kw = []) :
    ∃ g, ((WrapWorld.start c0).exec h).wraps[k]? = some g ∧
      g.str rep bad = name ++
        (match argList rep (pyDictStr rep (givenArgs h.reverse k).kw) (givenArgs h.reverse k) with
          | [] => ""
          | l => "(" ++ pyJoin ", " l ++ (if (givenArgs h.reverse k).args.length = 1 then ",)" else ")")) ++
        " " ++ pyTargetStr bad (lastSubscript h.reverse k) := by
  obtain ⟨cls, -, hw⟩ := (wrapInv_exec c0 h).wrap k i name hk
  refine ⟨_, hw, ?_⟩
  simp only [GateWrapper.str, wrapperStr]
  congr 3
  generalize givenArgs h.reverse k = c at hc ⊢
  obtain ⟨args, kw⟩ := c
  have e1 : ("(kwargs=" : String) = "(" ++ "kwargs=" := rfl
  have e2 : (", kwargs=" : String) = ", " ++ "kwargs=" := rfl
  simp only [wrapperArgStr, argList]
  match args, kw with
  | [], [] => simp
  | [], p :: kw =>
    simp [pyJoin, String.append_assoc]
    rw [e1]; simp only [String.append_assoc]
  | [a], [] => simp [pyTupleStr, pyJoin]
  | [a], p :: kw => simp at hc
  | a :: b :: args, [] => simp [pyTupleStr]
  | a :: b :: args, p :: kw =>
    have hj := pyJoin_snoc (rep a :: rep b :: args.map rep) (by simp) ("kwargs=" ++ pyDictStr rep (p :: kw))
    simp only [List.cons_append] at hj
    simp only [ne_eq, reduceCtorEq, not_false_eq_true, if_true, List.map_cons, pyTupleStr, dropLast_paren, if_false,
      List.cons_append, hj, List.length_cons]
    rw [if_neg (by omega), e2]
    simp only [String.append_assoc]

/-- `w = a.u2; w(1, 2, label="a")[0, 3:]`, and its text `u2(1, 2, kwargs={'label': 'a'}) (0, slice(3, None, None))`. -/
def wrapTextDemo : List WrapCmd :=
  [.attr 0 "u2", .call 0 ⟨[.int 1, .int 2], [("label", .str "a")]⟩, .item 0 (.tup [.atom (.int 0), .atom (.slice (some 3) none none)])]

/-- `repr` of integers and strings. -/
def demoRep : PyArg → String
  | .int i => toString i
  | .str s => "'" ++ s ++ "'"
  | _ => "?"

example : (fetched wrapTextDemo.reverse)[0]? = some (0, "u2") ∧
    ((givenArgs wrapTextDemo.reverse 0).args.length = 1 → (givenArgs wrapTextDemo.reverse 0).kw = []) ∧
    wrapperStr demoRep "?" "u2" (lastSubscript wrapTextDemo.reverse 0) (givenArgs wrapTextDemo.reverse 0) =
      "u2(1, 2, kwargs={'label': 'a'}) (0, slice(3, None, None))" := by
  refine ⟨by simp [wrapTextDemo, fetched, gateClass], by simp [wrapTextDemo, givenArgs, fetched, gateClass], ?_⟩
  simp [wrapTextDemo, givenArgs, lastSubscript, fetched, gateClass, wrapperStr, wrapperArgStr, pyTupleStr, pyDictStr, pyTargetStr, pyAtomStr,
    demoRep, pyJoin, dropLastChar, optStr, String.toList_append]
  decide

/-- C110, violated: one positional argument and keywords are written with two commas in a row, which is no argument list. Witness:
`str(circuit.rx(0.5, label="a"))`, and the same with `Ops`. -/
theorem C110_text_refuted (rep : PyArg → String) (bad : String) (name : String) (T : Option Targets) (a : PyArg) (p : String × PyArg)
    (kw : PyDict String PyArg) :
    wrapperStr rep bad name T ⟨[a], p :: kw⟩ =
      name ++ "(" ++ rep a ++ ",, kwargs=" ++ pyDictStr rep (p :: kw) ++ ") " ++ pyTargetStr bad T := by
  have h1 : dropLastChar ("(" ++ rep a ++ ",)") = "(" ++ rep a ++ "," := by
    have : "(" ++ rep a ++ ",)" = ("(" ++ rep a) ++ "," ++ ")" := by simp only [String.append_assoc]; rfl
    rw [this, dropLast_paren]
  have h2 : (",, kwargs=" : String) = "," ++ ", kwargs=" := rfl
  have h3 : (") " : String) = ")" ++ " " := rfl
  simp only [wrapperStr, wrapperArgStr, ne_eq, reduceCtorEq, not_false_eq_true, if_true, List.map_cons, List.map_nil, pyTupleStr, h1,
    h2, h3]
  simp only [String.append_assoc]

/-! ## Wrappers of `Ops` -/

theorem opsWrap_exec (ops : ℕ × List GateObj) (name : String) (h : List OpsWrapCmd) :
    (OpsWrapper.init ops name).exec h = ⟨ops, opsLastSubscript h.reverse, name, opsGivenArgs h.reverse⟩ := by
  induction h using List.reverseRecOn with
  | nil => rfl
  | append_singleton h c ih =>
    rw [List.reverse_append, List.reverse_singleton, List.singleton_append]
    simp only [OpsWrapper.exec, List.foldl_append, List.foldl_cons, List.foldl_nil] at ih ⊢
    rw [ih]
    cases c <;> rfl

/-- C110. A wrapper of an `Ops` value can be used any number of times: each subscript gives the value it was fetched from with one
gate more, made with the arguments given last; earlier subscripts leave no trace. -/
theorem C110_ops (n : ℕ) (l : List GateObj) (name cls : String) (hn : opsGateClass name = some cls) (h : List OpsWrapCmd) (T : Targets) :
    let r := (((OpsWrapper.init (n, l) name).exec h).step (.item T)).2
    (∀ o, makeGate cls T (opsGivenArgs h.reverse) = .ok o → Plain T → ∃ m, GrownTo n T m ∧ r = some (.ok (m, l ++ [o]))) ∧
    (∀ e, makeGate cls T (opsGivenArgs h.reverse) = .error e → Plain T → r = some (.error e)) ∧
    (¬Plain T → r = some (.error .attributeError)) := by
  intro r
  have hr : r = some (match opsCall n name (opsGivenArgs h.reverse) T with
      | .error e => .error e
      | .ok (m, o) => .ok (m, l ++ [o])) := by
    simp only [r, opsWrap_exec, OpsWrapper.step]
    rcases opsCall n name (opsGivenArgs h.reverse) T with e | ⟨m, o⟩ <;> rfl
  rw [hr]
  simp only [opsCall, hn]
  refine ⟨fun o ho hp => ?_, fun e he hp => ?_, fun hp => ?_⟩
  · obtain ⟨mx, hx⟩ := getMaximumIndex_plain hp
    simp only [hx, ho]
    exact ⟨_, newQubits_grown hx _, rfl⟩
  · obtain ⟨mx, hx⟩ := getMaximumIndex_plain hp
    simp only [hx, he]
  · cases hx : getMaximumIndex T with
    | ok mx => exact absurd (getMaximumIndex_ok hx).1 hp
    | error e =>
      have := getMaximumIndex_error hx
      subst this
      rfl

/-- `w = Ops(1).rx; w(0.5)[0]; w[3]`: the second subscript gives `Ops(4).rx(0.5)[3]`. -/
example : opsGateClass "rx" = some "rx" ∧
    makeGate "rx" (.ofInt 3) (opsGivenArgs ([.call ⟨[.float 0.5], []⟩, .item (.ofInt 0)] : List OpsWrapCmd).reverse) =
      .ok ⟨"rx", .tup [.float 0.5], [], .ofInt 3⟩ ∧ Plain (.ofInt 3) := by
  simp [opsGateClass, makeGate, opsGivenArgs, initParams, bindParams, PyDict.has, PyDict.get, PyCall.rest, Plain, Targets.ofInt]

/-- C110. The text of a wrapper of an `Ops` value is that of the circuit's wrapper with the same name, arguments and subscript. -/
theorem C110_ops_text (rep : PyArg → String) (bad : String) (ops : ℕ × List GateObj) (name : String) (h : List OpsWrapCmd) (g : GateWrapper)
    (h1 : g.name = name) (h2 : g.call = opsGivenArgs h.reverse) (h3 : g.target = opsLastSubscript h.reverse) :
    ((OpsWrapper.init ops name).exec h).str rep bad = g.str rep bad := by
  rw [opsWrap_exec]
  simp only [OpsWrapper.str, GateWrapper.str, h1, h2, h3]

end Blueqat
