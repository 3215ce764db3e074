import Verif.ReprLemmas
import Verif.Props.Circuit

/-!
# C64: the printed form of a circuit is a Python expression that rebuilds it
-/

set_option linter.unusedSimpArgs false
set_option linter.unusedVariables false

namespace Blueqat

open Spec

/-- A gate that can be written with the names of the gate set, on a subscript Python accepts. -/
def Printable (g : Gate) : Prop := Plain g.targets ∧ g.targets ≠ .tup [] ∧ g.NotCcz

theorem sameSub_canon (T : Targets) : SameSub T (canonTargets T) := by
  unfold canonTargets
  split
  · exact .single _
  · exact .refl _

theorem params_eq (g : Gate) : g.params = writtenNumbers g := by
  rcases g with ⟨k, T⟩ | ⟨k, T⟩ | ⟨k, T⟩ | T | T
  · cases k <;> rfl
  · cases k <;> rfl
  · rfl
  · rfl
  · rfl

theorem gateSet_lowername (g : Gate) (h : g.NotCcz) (T : Targets) (hT : SameSub g.targets T) :
    ∃ g', gateSet g.lowername g.params T = some g' ∧ SameGate g g' ∧ g'.targets = T := by
  rcases g with ⟨k, U⟩ | ⟨k, U⟩ | ⟨k, U⟩ | U | U
  · refine ⟨.g1 k T, ?_, .g1 k hT, rfl⟩
    cases k <;> rfl
  · refine ⟨.g2 k T, ?_, .g2 k hT, rfl⟩
    cases k <;> rfl
  · refine ⟨.g3 k T, ?_, .g3 k hT, rfl⟩
    cases k with
    | ccx => rfl
    | cswap => rfl
    | ccz => simp [Gate.NotCcz] at h
  · exact ⟨.measure T, rfl, .measure hT, rfl⟩
  · exact ⟨.reset T, rfl, .reset hT, rfl⟩

variable {fmt : ℝ → String} {read : String → Option ℝ} {S : Set ℝ}

/-- C64 (text): the printed form of a circuit with at least one operation is a Python expression
`Circuit(n).gate(numbers)[subscript]. ...`; evaluated with the gate names of the library it denotes the same size and
the same gates with the same numbers on the same subscripts. -/
theorem C64_text_partial (hf : PyNumbers fmt read S) (n : ℕ) (ops : List Gate) (hne : ops ≠ [])
    (hp : ∀ g ∈ ops, Printable g) (hS : ∀ g ∈ ops, ∀ x ∈ writtenNumbers g, x ∈ S) :
    ∃ text calls gs, reprCircuit fmt n ops = .ok text ∧ readCircuit read text.toList = some (n, calls) ∧
      calls.mapM (fun c => gateSet c.name c.args (subscript c.subs)) = some gs ∧ List.Forall₂ SameGate ops gs := by
  obtain ⟨parts, calls, h1, h2, h3, h4⟩ := readCalls_text hf ops (fun g hg => by rw [params_eq]; exact hS g hg)
    (fun g hg => ⟨(hp g hg).1, (hp g hg).2.1⟩)
  obtain ⟨p, ps, rfl⟩ : ∃ p ps, parts = p :: ps := by
    cases parts with
    | nil => exact absurd (List.length_eq_zero_iff.1 h2.symm) hne
    | cons p ps => exact ⟨p, ps, rfl⟩
  have hg : ∃ gs, calls.mapM (fun c => gateSet c.name c.args (subscript c.subs)) = some gs ∧
      List.Forall₂ SameGate ops gs := by
    clear h1 h2 h4 hne hS
    induction ops generalizing calls with
    | nil => cases calls with
      | nil => exact ⟨[], rfl, .nil⟩
      | cons c cs => simp at h3
    | cons g ops ih =>
      cases calls with
      | nil => simp at h3
      | cons c cs =>
        simp only [List.map_cons, List.cons.injEq, Prod.mk.injEq] at h3
        obtain ⟨⟨a1, a2, a3⟩, a4⟩ := h3
        obtain ⟨gs, k1, k2⟩ := ih (fun g hg => hp g (by simp [hg])) cs a4
        obtain ⟨g', m1, m2, -⟩ := gateSet_lowername g (hp g (by simp)).2.2 _ (sameSub_canon g.targets)
        refine ⟨g' :: gs, ?_, .cons m2 k2⟩
        simp only [List.mapM_cons, a1, a2, a3, m1, k1]
        rfl
  obtain ⟨gs, hg1, hg2⟩ := hg
  refine ⟨"Circuit(" ++ toString n ++ ")." ++ pyJoin "." (p :: ps), calls, gs, by simp only [reprCircuit, h1], ?_, hg1, hg2⟩
  have e : ("Circuit(" ++ toString n ++ ")." ++ pyJoin "." (p :: ps)).toList =
      ("Circuit(" ++ toString n ++ ")").toList ++ ((p :: ps).flatMap fun p => '.' :: p.toList) := by
    rw [← pyJoin_dots]
    simp
  rw [e]
  exact readCircuit_text n _ (h4 _ le_rfl)

/-- C64 (meaning): gates that are the same up to a tuple of one element denote the same operations. -/
theorem C64_same_meaning (n : ℕ) {ops gs : List Gate} (h : List.Forall₂ SameGate ops gs) (es : List Elem) :
    GatesDenote n ops es ↔ GatesDenote n gs es := by
  have hone : ∀ {T T' : Targets}, SameSub T T' → ∀ L, TargetsDenote n T L ↔ TargetsDenote n T' L := by
    intro T T' h L
    cases h with
    | refl => exact Iff.rfl
    | single a =>
      simp only [TargetsDenote]
      constructor
      · rintro ⟨as, h1, h2⟩
        cases as with
        | nil => simp at h1
        | cons b bs =>
          cases bs with
          | nil =>
            simp only [List.map_cons, List.map_nil, List.cons.injEq, Item.atom.injEq, and_true] at h1
            subst h1
            obtain ⟨L₁, L₂, k1, k2, k3⟩ := h2
            simp only [AtomsDenote] at k2
            subst k2 k3
            simpa using k1
          | cons c cs => simp at h1
      · intro h
        exact ⟨[a], rfl, L, [], h, rfl, by simp⟩
  have hpair : ∀ {T T' : Targets}, SameSub T T' → ∀ L, PairsDenote n T L ↔ PairsDenote n T' L := by
    intro T T' h L
    cases h with
    | refl => exact Iff.rfl
    | single a => simp [PairsDenote]
  have hg : ∀ {g g' : Gate}, SameGate g g' → ∀ es, GateDenotes n g es ↔ GateDenotes n g' es := by
    intro g g' h es
    cases h with
    | g1 k h => simp only [GateDenotes, hone h]
    | g2 k h => simp only [GateDenotes, hpair h]
    | g3 k h => cases h with
      | refl => exact Iff.rfl
      | single a => simp [GateDenotes]
    | measure h => simp only [GateDenotes, hone h]
    | reset h => simp only [GateDenotes, hone h]
  induction h generalizing es with
  | nil => exact Iff.rfl
  | cons h hs ih => simp only [GatesDenote, hg h, ih]

section
variable {V M C B A R : Type} (kit : Kit C B A R) (isAttr : String → Bool)

theorem mentions_same {g g' : Gate} (h : SameGate g g') : mentions g.targets = mentions g'.targets ∧
    (Plain g.targets → Plain g'.targets) := by
  have : ∀ {T T' : Targets}, SameSub T T' → mentions T = mentions T' ∧ (Plain T → Plain T') := by
    intro T T' h
    cases h with
    | refl => exact ⟨rfl, id⟩
    | single a => simp [mentions, atomsOf, Plain]
  cases h <;> exact this ‹_›

/-- Appending gates one after the other: the operations, and the least register that contains all indices. -/
theorem exec_appends (gs : List Gate) (hp : ∀ g ∈ gs, Plain g.targets) (w : World V M C B) (i : ℕ) (hi : i < w.nCircs) :
    let w' := w.exec kit isAttr (gs.map (.append i))
    (view w' i).ops = (view w i).ops ++ gs ∧
    IsLeast {m : ℕ | (view w i).n ≤ m ∧ ∀ g ∈ gs, ∀ v ∈ mentions g.targets, v < m} (view w' i).n := by
  induction gs generalizing w with
  | nil => exact ⟨by simp [World.exec], by simp [World.exec], fun m hm => hm.1⟩
  | cons g gs ih =>
    obtain ⟨h1, m, h2, h3⟩ := C04_append kit isAttr w i hi g (hp g (by simp))
    have hn : i < (w.step kit isAttr (.append i g)).1.nCircs := by
      obtain ⟨v, hv⟩ := getMaximumIndex_plain (hp g (by simp))
      simp only [World.step, World.onCirc, hi, if_true, hv]
    obtain ⟨k1, k2⟩ := ih (fun g hg => hp g (by simp [hg])) (w.step kit isAttr (.append i g)).1 hn
    have e : w.exec kit isAttr ((g :: gs).map (.append i)) =
        (w.step kit isAttr (.append i g)).1.exec kit isAttr (gs.map (.append i)) := rfl
    rw [h3] at k1 k2
    simp only [e]
    refine ⟨by rw [k1]; simp, ?_, ?_⟩
    · refine ⟨h2.1.1.trans k2.1.1, fun g' hg' v hv => ?_⟩
      rcases List.mem_cons.1 hg' with rfl | hg'
      · have a1 := h2.1.2 v hv
        have a2 := k2.1.1
        simp only at a2
        omega
      · exact k2.1.2 g' hg' v hv
    · intro m' hm'
      refine k2.2 ⟨h2.2 ⟨hm'.1, fun v hv => hm'.2 g (by simp) v hv⟩, fun g' hg' => hm'.2 g' (by simp [hg'])⟩

/-- C64: build a circuit from `Circuit(m)` by any sequence of at least one gate with printable subscripts, print it, and
evaluate the text as Python does (make the circuit, append the gates in order): the result has the same size and the
same gates. -/
theorem C64_roundtrip_partial (hf : PyNumbers fmt read S) (b : B) (reg : Registry V M C) (m : ℕ) (ops : List Gate)
    (hne : ops ≠ []) (hp : ∀ g ∈ ops, Printable g) (hS : ∀ g ∈ ops, ∀ x ∈ writtenNumbers g, x ∈ S) :
    let c := view ((World.start b reg).exec kit isAttr (.new m :: ops.map (.append 0))) 0
    ∃ text n calls gs, reprCircuit fmt c.n c.ops = .ok text ∧ readCircuit read text.toList = some (n, calls) ∧
      calls.mapM (fun c => gateSet c.name c.args (subscript c.subs)) = some gs ∧
      let d := view ((World.start b reg).exec kit isAttr (.new n :: gs.map (.append 0))) 0
      d.n = c.n ∧ List.Forall₂ SameGate c.ops d.ops := by
  intro c
  have hnew : ∀ k, ((World.start b reg : World V M C B).step kit isAttr (.new k)).1.nCircs = 1 := fun k => rfl
  have hv : ∀ k, view ((World.start b reg : World V M C B).step kit isAttr (.new k)).1 0 = ⟨[], k, none, []⟩ := by
    intro k; simp [World.step, World.alloc, World.start, view]
  obtain ⟨c1, c2⟩ := exec_appends kit isAttr ops (fun g hg => (hp g hg).1)
    ((World.start b reg).step kit isAttr (.new m)).1 0 (by rw [hnew]; omega)
  have hc1 : c.ops = ops := by
    rw [hv] at c1
    exact c1
  have hc2 : ∀ g ∈ ops, ∀ v ∈ mentions g.targets, v < c.n := c2.1.2
  clear_value c
  obtain ⟨text, calls, gs, h1, h2, h3, h4⟩ := C64_text_partial hf c.n ops hne hp hS
  refine ⟨text, c.n, calls, gs, by rw [hc1]; exact h1, h2, h3, ?_⟩
  have hpl : ∀ g ∈ gs, Plain g.targets ∧ ∀ v ∈ mentions g.targets, v < c.n := by
    clear h1 h2 h3 c1 c2 hc1 hne hS
    induction h4 with
    | nil => simp
    | @cons g g' ops gs h hs ih =>
      intro x hx
      rcases List.mem_cons.1 hx with rfl | hx
      · exact ⟨(mentions_same h).2 (hp g (by simp)).1, by
          rw [← (mentions_same h).1]; exact hc2 g (by simp)⟩
      · exact ih (fun g hg => hp g (by simp [hg])) (fun g hg => hc2 g (by simp [hg])) x hx
  obtain ⟨d1, d2⟩ := exec_appends kit isAttr gs (fun g hg => (hpl g hg).1)
    ((World.start b reg).step kit isAttr (.new c.n)).1 0 (by rw [hnew]; omega)
  rw [hv] at d1 d2
  refine ⟨le_antisymm (d2.2 ⟨le_rfl, fun g hg => (hpl g hg).2⟩) d2.1.1, ?_⟩
  rw [hc1]
  have : (view ((World.start b reg).exec kit isAttr (.new c.n :: gs.map (.append 0))) 0).ops = gs := by
    exact d1
  rw [this]
  exact h4

end

/-- C64 (injectivity): circuits with the same text have the same size and gates that denote the same operations. -/
theorem C64_injective_partial (hf : PyNumbers fmt read S) (n n' : ℕ) (ops ops' : List Gate) (hne : ops ≠ []) (hne' : ops' ≠ [])
    (hp : ∀ g ∈ ops, Printable g) (hp' : ∀ g ∈ ops', Printable g)
    (hS : ∀ g ∈ ops, ∀ x ∈ writtenNumbers g, x ∈ S) (hS' : ∀ g ∈ ops', ∀ x ∈ writtenNumbers g, x ∈ S)
    (h : reprCircuit fmt n ops = reprCircuit fmt n' ops') :
    n = n' ∧ ∀ es, GatesDenote n ops es ↔ GatesDenote n' ops' es := by
  obtain ⟨t, cs, gs, h1, h2, h3, h4⟩ := C64_text_partial hf n ops hne hp hS
  obtain ⟨t', cs', gs', k1, k2, k3, k4⟩ := C64_text_partial hf n' ops' hne' hp' hS'
  rw [h1, k1] at h
  cases h
  rw [h2] at k2
  simp only [Option.some.injEq, Prod.mk.injEq] at k2
  obtain ⟨rfl, rfl⟩ := k2
  rw [h3] at k3
  cases k3
  exact ⟨rfl, fun es => (C64_same_meaning n h4 es).trans (C64_same_meaning n k4 es).symm⟩

/-- C64 is false of circuits without operations: the text ends with a dot, which is no Python expression. -/
theorem C64_empty_refuted (n : ℕ) : ∃ text, reprCircuit fmt n [] = .ok text ∧ readCircuit read text.toList = none := by
  refine ⟨"Circuit(" ++ toString n ++ ").", by simp [reprCircuit, pyJoin, pure, Except.pure], ?_⟩
  have hd := digit_of_mem n
  obtain ⟨h1, h2⟩ := takeWhile_stop Char.isDigit hd (x := ')') (by decide) ['.']
  have e : ("Circuit(" ++ toString n ++ ").").toList = "Circuit(".toList ++ ((toString n).toList ++ ')' :: ['.']) := by simp
  rw [e, readCircuit, if_pos (by simp [List.isPrefixOf_iff_prefix])]
  simp only [List.drop_left, h1, h2]
  have : (String.ofList (toString n).toList).toNat? = some n := by
    rw [String.ofList_toList]; exact Nat.toNat?_repr n
  simp only [this]
  simp [readCalls, readCall, readArgs, readSubs]

/-- C64 is false of a gate on the empty tuple, which `c.x[()]` appends without an error: it is printed as `x[]`. -/
theorem C64_empty_tuple_refuted (n : ℕ) :
    getMaximumIndex (.tup []) = .ok (-1) ∧ strGate fmt (.g1 .x (.tup [])) = .ok "x[]" ∧
      readCall read "x[]".toList = none := by
  refine ⟨rfl, rfl, ?_⟩
  have hn : (String.ofList []).isNat = false := by
    rw [Bool.eq_false_iff]
    intro h
    simpa using (String.isNat_iff.1 h).1
  have h0 : readInt [] = none := by
    simp only [readInt, String.toNat?_eq_none hn, Option.map_none]
  simp [readCall, readArgs, readSubs, commaList, splitChar, readSub, h0, List.dropWhile, List.takeWhile]

theorem strTargets_empty : strTargets (.tup []) = .ok "[]" := rfl

theorem readSubs_empty (rest : List Char) : readSubs ('[' :: ']' :: rest) = none := by
  have hn : (String.ofList []).isNat = false := by
    rw [Bool.eq_false_iff]
    intro h
    simpa using (String.isNat_iff.1 h).1
  have h0 : readInt [] = none := by
    simp only [readInt, String.toNat?_eq_none hn, Option.map_none]
  simp [readSubs, commaList, splitChar, readSub, h0, List.dropWhile, List.takeWhile]

theorem strGate_empty (hf : PyNumbers fmt read S) {g : Gate} (hp : ∀ x ∈ g.params, x ∈ S) (hT : g.targets = .tup []) :
    ∃ t, strGate fmt g = .ok t ∧ ∀ rest, readCall read (t.toList ++ rest) = none := by
  refine ⟨g.lowername ++ strArgs fmt g.params ++ "[]", by simp [strGate, hT, strTargets_empty], fun rest => ?_⟩
  have e : (g.lowername ++ strArgs fmt g.params ++ "[]").toList ++ rest =
      g.lowername.toList ++ ((strArgs fmt g.params).toList ++ '[' :: (']' :: rest)) := by
    simp
  have hx : ∃ x v, x.isAlphanum = false ∧ (strArgs fmt g.params).toList ++ '[' :: (']' :: rest) = x :: v := by
    by_cases he : g.params = []
    · exact ⟨'[', ']' :: rest, by decide, by simp [strArgs, he]⟩
    · exact ⟨'(', (pyJoin ", " (g.params.map fmt)).toList ++ ')' :: '[' :: (']' :: rest), by decide, by simp [strArgs, he]⟩
  obtain ⟨x, v, hx, hv⟩ := hx
  obtain ⟨h4, h5⟩ := takeWhile_stop Char.isAlphanum (lowername_chars g) hx v
  rw [e, readCall, hv, h5, ← hv, readArgs_text hf hp]
  simp only [readSubs_empty]

theorem strGate_plain {g : Gate} (hT : Plain g.targets) : ∃ t, strGate fmt g = .ok t := by
  by_cases he : g.targets = .tup []
  · exact ⟨g.lowername ++ strArgs fmt g.params ++ "[]", by simp [strGate, he, strTargets_empty]⟩
  · obtain ⟨t, subs, h1, -⟩ := strTargets_ok hT he
    exact ⟨g.lowername ++ strArgs fmt g.params ++ t, by simp [strGate, h1]⟩

theorem strGates_plain (ops : List Gate) (hT : ∀ g ∈ ops, Plain g.targets) :
    ∃ parts, ops.mapM (strGate fmt) = .ok parts ∧ parts.length = ops.length := by
  induction ops with
  | nil => exact ⟨[], rfl, rfl⟩
  | cons g ops ih =>
    obtain ⟨parts, h1, h2⟩ := ih fun g h => hT g (by simp [h])
    obtain ⟨t, k⟩ := strGate_plain (fmt := fmt) (hT g (by simp))
    exact ⟨t :: parts, by simp only [List.mapM_cons, k, h1, bind, Except.bind, pure, Except.pure], by simp [h2]⟩

theorem readCalls_empty (hf : PyNumbers fmt read S) (ops : List Gate) (hp : ∀ g ∈ ops, ∀ x ∈ g.params, x ∈ S)
    (hT : ∀ g ∈ ops, Plain g.targets) (he : ∃ g ∈ ops, g.targets = .tup []) (parts : List String)
    (h : ops.mapM (strGate fmt) = .ok parts) (fuel : ℕ) :
    readCalls read fuel (parts.flatMap fun p => '.' :: p.toList) = none := by
  induction ops generalizing parts fuel with
  | nil => simp at he
  | cons g ops ih =>
    obtain ⟨ps, h1, -⟩ := strGates_plain (fmt := fmt) ops fun g h => hT g (by simp [h])
    obtain ⟨t, k⟩ := strGate_plain (fmt := fmt) (hT g (by simp))
    simp only [List.mapM_cons, k, h1, bind, Except.bind, pure, Except.pure, Except.ok.injEq] at h
    subst h
    simp only [List.flatMap_cons, List.cons_append]
    cases fuel with
    | zero => rfl
    | succ fuel =>
      by_cases hg : g.targets = .tup []
      · obtain ⟨t', k1, k2⟩ := strGate_empty hf (hp g (by simp)) hg
        rw [k] at k1
        cases k1
        simp only [readCalls, k2]
      · obtain ⟨t', subs, k1, -, -, k4⟩ := strGate_ok hf (hp g (by simp)) (hT g (by simp)) hg
        rw [k] at k1
        cases k1
        have he' : ∃ g ∈ ops, g.targets = .tup [] := by
          obtain ⟨g', hm, hg'⟩ := he
          rcases List.mem_cons.1 hm with rfl | hm
          · exact absurd hg' hg
          · exact ⟨g', hm, hg'⟩
        simp only [readCalls, k4]
        rw [ih (fun g h => hp g (by simp [h])) (fun g h => hT g (by simp [h])) he' ps h1 fuel]
        rfl

theorem readCircuit_none (n : ℕ) (rest : List Char) (h : readCalls read rest.length rest = none) :
    readCircuit read (("Circuit(" ++ toString n ++ ")").toList ++ rest) = none := by
  have e : ("Circuit(" ++ toString n ++ ")").toList ++ rest =
      "Circuit(".toList ++ ((toString n).toList ++ ')' :: rest) := by simp
  have hd := digit_of_mem n
  obtain ⟨h1, h2⟩ := takeWhile_stop Char.isDigit hd (x := ')') (by decide) rest
  have hk : (String.ofList (toString n).toList).toNat? = some n := by
    rw [String.ofList_toList]; exact Nat.toNat?_repr n
  rw [e, readCircuit, if_pos (by simp [List.isPrefixOf_iff_prefix])]
  simp only [List.drop_left, h1, h2, hk, h]
  rfl

/-- C64, exact: the text of a circuit on flat subscripts is an expression if and only if there is at least one operation and no
subscript is the empty tuple. -/
theorem C64_exact (hf : PyNumbers fmt read S) (n : ℕ) (ops : List Gate) (hT : ∀ g ∈ ops, Plain g.targets)
    (hS : ∀ g ∈ ops, ∀ x ∈ writtenNumbers g, x ∈ S) :
    ∃ text, reprCircuit fmt n ops = .ok text ∧
      ((readCircuit read text.toList).isSome ↔ ops ≠ [] ∧ ∀ g ∈ ops, g.targets ≠ .tup []) := by
  have hS' : ∀ g ∈ ops, ∀ x ∈ g.params, x ∈ S := fun g hg => by rw [params_eq]; exact hS g hg
  by_cases hne : ops = []
  · subst hne
    obtain ⟨text, h1, h2⟩ := C64_empty_refuted (fmt := fmt) (read := read) n
    exact ⟨text, h1, by simp [h2]⟩
  obtain ⟨parts, h1, h2⟩ := strGates_plain (fmt := fmt) ops hT
  obtain ⟨p, ps, rfl⟩ : ∃ p ps, parts = p :: ps := by
    cases parts with
    | nil => exact absurd (List.length_eq_zero_iff.1 h2.symm) hne
    | cons p ps => exact ⟨p, ps, rfl⟩
  have e : ("Circuit(" ++ toString n ++ ")." ++ pyJoin "." (p :: ps)).toList =
      ("Circuit(" ++ toString n ++ ")").toList ++ ((p :: ps).flatMap fun p => '.' :: p.toList) := by
    rw [← pyJoin_dots]
    simp
  refine ⟨_, by simp only [reprCircuit, h1]; rfl, ?_⟩
  rw [e]
  by_cases he : ∃ g ∈ ops, g.targets = .tup []
  · rw [readCircuit_none n _ (readCalls_empty hf ops hS' hT he _ h1 _)]
    obtain ⟨g, hg, hg'⟩ := he
    simp only [Option.isSome_none, Bool.false_eq_true, false_iff, not_and]
    exact fun _ h => h g hg hg'
  · push Not at he
    obtain ⟨parts', calls, k1, -, -, k4⟩ := readCalls_text hf ops hS' (fun g hg => ⟨hT g hg, he g hg⟩)
    rw [h1] at k1
    cases k1
    rw [readCircuit_text n _ (k4 _ le_rfl)]
    simp [hne]
    exact he

theorem sliceToStr_not {a : Atom} (h : ¬ a ≠ .bad) : sliceToStr a = .error .attributeError := by
  cases a <;> simp_all [sliceToStr]

theorem strTargets_not {T : Targets} (h : ¬ Plain T) : strTargets T = .error .attributeError := by
  cases T with
  | one a => simp only [strTargets, sliceToStr_not h]
  | tup xs =>
    have key : xs.mapM sliceToStrItem = .error .attributeError := by
      induction xs with
      | nil => exact absurd (by simp [Plain]) h
      | cons x xs ih =>
        by_cases hx : ∃ a, x = .atom a ∧ a ≠ .bad
        · obtain ⟨a, rfl, ha⟩ := hx
          obtain ⟨t, ht⟩ := sliceToStr_ok ha
          have := ih (fun h' => h (by
            intro y hy
            rcases List.mem_cons.1 hy with rfl | hy
            · exact ⟨a, rfl, ha⟩
            · exact h' y hy))
          simp only [List.mapM_cons, sliceToStrItem, ht, this, bind, Except.bind]
        · have hx' : sliceToStrItem x = .error .attributeError := by
            cases x with
            | atom a => exact sliceToStr_not fun ha => hx ⟨a, rfl, ha⟩
            | tup _ => rfl
          simp only [List.mapM_cons, hx', bind, Except.bind]
    simp only [strTargets, key]

/-- C64, errors: printing raises AttributeError exactly if some gate is on a nested tuple or on a value that is no index, as those
gates are that a rejected append leaves in the circuit (C05). -/
theorem C64_raises (n : ℕ) (ops : List Gate) :
    (reprCircuit fmt n ops = .error .attributeError ↔ ∃ g ∈ ops, ¬ Plain g.targets) ∧
    ((∃ text, reprCircuit fmt n ops = .ok text) ↔ ∀ g ∈ ops, Plain g.targets) := by
  by_cases h : ∀ g ∈ ops, Plain g.targets
  · obtain ⟨parts, h1, -⟩ := strGates_plain (fmt := fmt) ops h
    simp only [reprCircuit, h1]
    refine ⟨⟨fun h' => (by simp at h'), fun ⟨g, hg, hn⟩ => absurd (h g hg) hn⟩, fun _ => h, fun _ => ⟨_, rfl⟩⟩
  · have key : ops.mapM (strGate fmt) = .error .attributeError := by
      induction ops with
      | nil => simp at h
      | cons g ops ih =>
        by_cases hg : Plain g.targets
        · obtain ⟨t, k⟩ := strGate_plain (fmt := fmt) hg
          have := ih (fun h' => h (by
            intro y hy
            rcases List.mem_cons.1 hy with rfl | hy
            · exact hg
            · exact h' y hy))
          simp only [List.mapM_cons, k, this, bind, Except.bind]
        · have hg' : strGate fmt g = .error .attributeError := by simp only [strGate, strTargets_not hg]
          simp only [List.mapM_cons, hg', bind, Except.bind]
    simp only [reprCircuit, key]
    push Not at h
    refine ⟨⟨fun _ => h, fun _ => trivial⟩, ⟨fun ⟨_, h'⟩ => (by simp at h'), fun h' => ?_⟩⟩
    obtain ⟨g, hg, hn⟩ := h
    exact absurd (h' g hg) hn

/-- C64: after a rejected `cx[(0, 1), (2, 3)]`, which stays in the circuit (C05), printing raises AttributeError. -/
theorem C64_nested_refuted (n : ℕ) (ops : List Gate) :
    reprCircuit fmt n (ops ++ [.g2 .cx (.tup [.tup [.int 0, .int 1], .tup [.int 2, .int 3]])]) = .error .attributeError :=
  (C64_raises n _).1.2 ⟨.g2 .cx (.tup [.tup [.int 0, .int 1], .tup [.int 2, .int 3]]), by simp, by simp [Plain, Gate.targets]⟩

/-! ## Non-vacuity -/

/-- A number format for the examples: only the number 1/2, written as Python does. -/
noncomputable def halfRead (s : String) : Option ℝ := if s = "0.5" then some (1 / 2) else none

theorem halfNumbers : PyNumbers (fun _ => "0.5") halfRead {1 / 2} where
  back := by rintro x rfl; simp [halfRead]
  clean := by rintro x rfl c hc; simp at hc; rcases hc with rfl | rfl | rfl <;> decide

example : reprCircuit (fun _ => "0.5") 3 [.g1 .h (.one (.slice none none none)),
    .g1 (.rx (1 / 2)) (.tup [.atom (.int 0), .atom (.slice (some (-2)) none (some 2))]),
    .g2 .cx (.tup [.atom (.int 0), .atom (.int 1)])] =
      .ok "Circuit(3).h[:].rx(0.5)[0, -2::2].cx[0, 1]" := by
  simp [reprCircuit, strGate, strTargets, sliceToStr, sliceToStrItem, strArgs, pyJoin, strBound, Gate.targets,
    Gate.params, G1.params, G2.params, Gate.lowername, G1.lowername, G2.lowername, bind, Except.bind, pure, Except.pure]
  decide +kernel

example : Printable (.g1 (.rx (1 / 2)) (.tup [.atom (.int 0), .atom (.slice (some (-2)) none (some 2))])) :=
  ⟨by simp [Plain, Gate.targets], by simp [Gate.targets], trivial⟩

end Blueqat
