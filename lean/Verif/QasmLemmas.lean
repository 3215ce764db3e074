import Verif.QasmMeaning
import Verif.QasmParse

/-! Lemmas: the lines the OpenQASM backend appends, and their meaning. -/

set_option linter.unusedSimpArgs false
set_option linter.unusedVariables false

namespace Blueqat

open Spec

noncomputable section

variable (fmt : ℝ → String)

/-- Name, parameters and comment of the statement of a one-qubit gate the backend prints. -/
def stmt1 : G1 → Option (String × List ℝ × Option String)
  | .x => some ("x", [], none)
  | .y => some ("y", [], none)
  | .z => some ("z", [], none)
  | .h => some ("h", [], none)
  | .t => some ("t", [], none)
  | .s => some ("s", [], none)
  | .rx θ => some ("rx", [θ], none)
  | .ry θ => some ("ry", [θ], none)
  | .rz θ => some ("rz", [θ], none)
  | .i => some ("id", [], none)
  | .u1 lam => some ("u1", [lam], none)
  | .u2 φ lam => some ("u2", [φ, lam], none)
  | .u3 θ φ lam => some ("u3", [θ, φ, lam], none)
  | .phase θ => some ("u1", [θ], some " Global phase is ignored.")
  | _ => none

def stmt2 : G2 → Option (String × List ℝ)
  | .cz => some ("cz", [])
  | .cx => some ("cx", [])
  | .cy => some ("cy", [])
  | .ch => some ("ch", [])
  | .swap => some ("swap", [])
  | .cu1 lam => some ("cu1", [lam])
  | .cu2 φ lam => some ("cu2", [φ, lam])
  | .cu3 θ φ lam => some ("cu3", [θ, φ, lam])
  | .cphase θ => some ("cu1", [θ])
  | _ => none

def stmt3 : G3 → Option String
  | .ccx => some "ccx"
  | .cswap => some "cswap"
  | .ccz => none

/-- The line of an elementary operation the backend prints. -/
def lineOf : Elem → Option QLine
  | .one k t => (stmt1 k).map fun p => ⟨.gate p.1 p.2.1 [t], p.2.2⟩
  | .two k c t => (stmt2 k).map fun p => ⟨.gate p.1 p.2 [c, t], none⟩
  | .three k a b c => (stmt3 k).map fun p => ⟨.gate p [] [a, b, c], none⟩
  | .meas t => some ⟨.measure t t, none⟩
  | .reset t => some ⟨.reset t, none⟩

theorem foldlM_append {α : Type} (L : List α) (text : α → String) (l : List String) :
    L.foldlM (fun (l : List String) a => (.ok (l ++ [text a]) : Except PyErr _)) l = .ok (l ++ L.map text) := by
  induction L generalizing l with
  | nil => simp; rfl
  | cons a L ih =>
    rw [List.foldlM_cons]
    show L.foldlM (fun (l : List String) a => (.ok (l ++ [text a]) : Except PyErr _)) (l ++ [text a]) = _
    rw [ih]; simp

theorem qaEach_eq {n : ℕ} {T : Targets} {L : List ℕ} (hT : TargetsDenote n T (L.map (fun q : ℕ => (q : Int))))
    (text : ℤ → String) (l : List String) : qaEach n T text l = .ok (l ++ L.map fun q : ℕ => text (q : ℤ)) := by
  rw [← slicing_eq_iff] at hT
  simp only [qaEach, forGen, hT]
  rw [foldlM_append]
  simp only [List.map_map]
  rfl

theorem qaEachPair_eq {n : ℕ} {T : Targets} {L : List (ℕ × ℕ)}
    (hT : PairsDenote n T (L.map (fun p : ℕ × ℕ => ((p.1 : Int), (p.2 : Int)))))
    (text : ℤ → ℤ → String) (l : List String) :
    qaEachPair n T text l = .ok (l ++ L.map fun p : ℕ × ℕ => text (p.1 : ℤ) (p.2 : ℤ)) := by
  rw [← pairsDenote_iff] at hT
  simp only [qaEachPair, forPairs, hT]
  rw [foldlM_append _ (fun p : ℤ × ℤ => text p.1 p.2)]
  simp only [List.map_map]
  rfl

theorem toString_nat (i : ℕ) : toString (i : ℤ) = toString i := rfl

/-- `lines` are the lines of the operations `es`. -/
def LinesOf (es : List Elem) (lines : List QLine) : Prop := List.Forall₂ (fun e l => lineOf e = some l) es lines

theorem linesOf_map {α : Type} (L : List α) (e : α → Elem) (l : α → QLine) (h : ∀ a, lineOf (e a) = some (l a)) :
    LinesOf (L.map e) (L.map l) := by
  induction L with
  | nil => exact .nil
  | cons a L ih => exact .cons (h a) ih

theorem native1 {n : ℕ} {k : G1} {head : String} (h : qaHead1 fmt k = some head) :
    ∃ nm ps cm, stmt1 k = some (nm, ps, cm) ∧ head = nm ++ paramsText fmt ps ∧
      qaTail1 k = (match cm with | none => "" | some c => " //" ++ c) := by
  cases k <;> simp only [qaHead1, Option.some.injEq, reduceCtorEq] at h <;> subst h <;>
    refine ⟨_, _, _, rfl, ?_, ?_⟩ <;>
    simp [paramsText, joinWith, qaTail1, String.append_assoc] <;> rfl

theorem native2 {n : ℕ} {k : G2} {head : String} (h : qaHead2 fmt k = some head) :
    ∃ nm ps, stmt2 k = some (nm, ps) ∧ head = nm ++ paramsText fmt ps := by
  cases k <;> simp only [qaHead2, Option.some.injEq, reduceCtorEq] at h <;> subst h <;>
    refine ⟨_, _, rfl, ?_⟩ <;> simp [paramsText, joinWith, String.append_assoc] <;> rfl

theorem native {n : ℕ} {g : Gate} {a : List String → Except PyErr (List String)} {es : List Elem}
    (h : qaAction fmt n g = some a) (hd : GateDenotes n g es) :
    ∃ lines, LinesOf es lines ∧ ∀ l, a l = .ok (l ++ lines.map (QLine.text fmt)) := by
  cases g with
  | g1 k T =>
    obtain ⟨L, hL, rfl⟩ := hd
    simp only [qaAction, Option.map_eq_some_iff] at h
    obtain ⟨head, hh, rfl⟩ := h
    obtain ⟨nm, ps, cm, h1, h2, h3⟩ := native1 fmt (n := n) hh
    refine ⟨L.map fun t => ⟨.gate nm ps [t], cm⟩, linesOf_map _ _ _ fun t => by simp [lineOf, h1], fun l => ?_⟩
    rw [qaEach_eq hL]
    congr 2
    rw [List.map_map]
    refine List.map_congr_left fun t _ => ?_
    simp only [Function.comp, QLine.text, QStmt.text, List.map_cons, List.map_nil, joinWith, qubitText, toString_nat, h2, h3]
    simp only [String.append_assoc]
    rfl
  | g2 k T =>
    obtain ⟨L, hL, rfl⟩ := hd
    simp only [qaAction, Option.map_eq_some_iff] at h
    obtain ⟨head, hh, rfl⟩ := h
    obtain ⟨nm, ps, h1, h2⟩ := native2 fmt (n := n) hh
    refine ⟨L.map fun p => ⟨.gate nm ps [p.1, p.2], none⟩, linesOf_map _ _ _ fun t => by simp [lineOf, h1], fun l => ?_⟩
    rw [qaEachPair_eq hL]
    congr 2
    rw [List.map_map]
    refine List.map_congr_left fun t _ => ?_
    simp only [Function.comp, QLine.text, QStmt.text, List.map_cons, List.map_nil, joinWith, qubitText, toString_nat, h2]
    simp only [String.append_assoc, String.append_empty]
    rfl
  | g3 k T =>
    obtain ⟨x, y, z, rfl, rfl⟩ := hd
    simp only [qaAction, Option.map_eq_some_iff] at h
    obtain ⟨head, hh, rfl⟩ := h
    refine ⟨[⟨.gate head [] [x, y, z], none⟩], .cons ?_ .nil, fun l => ?_⟩
    · cases k <;> simp [qaHead3] at hh <;> subst hh <;> rfl
    · simp only [qaThree, unpack3, itemStr, atomStr, toString_nat, QLine.text, QStmt.text, List.map_cons, List.map_nil,
        joinWith, qubitText, paramsText]
      simp only [String.append_assoc, String.append_empty]
      rfl
  | measure T =>
    obtain ⟨L, hL, rfl⟩ := hd
    simp only [qaAction, Option.some.injEq] at h
    subst h
    refine ⟨L.map fun t => ⟨.measure t t, none⟩, linesOf_map _ _ _ fun t => rfl, fun l => ?_⟩
    rw [qaEach_eq hL]
    congr 2
    rw [List.map_map]
    refine List.map_congr_left fun t _ => ?_
    simp only [Function.comp, QLine.text, QStmt.text, toString_nat, String.append_empty]
  | reset T =>
    obtain ⟨L, hL, rfl⟩ := hd
    simp only [qaAction, Option.some.injEq] at h
    subst h
    refine ⟨L.map fun t => ⟨.reset t, none⟩, linesOf_map _ _ _ fun t => rfl, fun l => ?_⟩
    rw [qaEach_eq hL]
    congr 2
    rw [List.map_map]
    refine List.map_congr_left fun t _ => ?_
    simp only [Function.comp, QLine.text, QStmt.text, toString_nat, String.append_empty]

/-- Not a controlled U2. -/
def Elem.NotCu2 : Elem → Prop
  | .two (.cu2 _ _) _ _ => False
  | _ => True

/-- Not a controlled U2. -/
def Gate.NotCu2 : Gate → Prop
  | .g2 (.cu2 _ _) _ => False
  | _ => True

/-- Not a CCZ. -/
def Gate.NotCcz : Gate → Prop
  | .g3 .ccz _ => False
  | _ => True

theorem notCu2_denotes {n : ℕ} {g : Gate} {es : List Elem} (hd : GateDenotes n g es) (h : g.NotCu2) :
    ∀ e ∈ es, Elem.NotCu2 e := by
  cases g with
  | g1 k T => obtain ⟨L, hL, rfl⟩ := hd; simp [Elem.NotCu2]
  | g2 k T =>
    obtain ⟨L, hL, rfl⟩ := hd
    intro e he
    obtain ⟨p, -, rfl⟩ := List.mem_map.1 he
    cases k <;> first | trivial | exact h
  | g3 k T => obtain ⟨x, y, z, rfl, rfl⟩ := hd; simp [Elem.NotCu2]
  | measure T => obtain ⟨L, hL, rfl⟩ := hd; simp [Elem.NotCu2]
  | reset T => obtain ⟨L, hL, rfl⟩ := hd; simp [Elem.NotCu2]

theorem plain_g1 {k : G1} {f : ℤ → List Gate} (h : k.fallbackOn = some f) (t : ℤ) :
    ∀ g ∈ f t, g.NotCu2 ∧ g.NotCcz := by
  cases k <;> simp [G1.fallbackOn] at h <;> subst h <;> simp [on1, Gate.NotCu2, Gate.NotCcz]

theorem plain_g2 {k : G2} {f : ℤ → ℤ → List Gate} (h : k.fallbackOn = some f) (c t : ℤ) :
    ∀ g ∈ f c t, g.NotCu2 ∧ g.NotCcz := by
  cases k <;> simp [G2.fallbackOn] at h <;> subst h <;> simp [on1, on2, Gate.NotCu2, Gate.NotCcz]

theorem angles_g1 {S : Set ℝ} (hS : AngleSet S) {k : G1} (hk : ∀ x ∈ angles1 k, x ∈ S) {f : ℤ → List Gate}
    (h : k.fallbackOn = some f) (t : ℤ) : ∀ g ∈ f t, AnglesIn S g := by
  have h2 := hS.half _ hS.pi
  have h4 := hS.half _ h2
  have e4 : Real.pi / 2 / 2 = Real.pi / 4 := by ring
  have n2 := hS.neg _ h2
  have n4 := hS.neg _ h4
  rw [e4] at h4 n4
  cases k <;> simp [G1.fallbackOn] at h <;> subst h <;>
    simp_all [on1, AnglesIn, angles1, neg_div, hS.zero]

theorem angles_g2 {S : Set ℝ} (hS : AngleSet S) {k : G2} (hk : ∀ x ∈ angles2 k, x ∈ S) {f : ℤ → ℤ → List Gate}
    (h : k.fallbackOn = some f) (c t : ℤ) : ∀ g ∈ f c t, AnglesIn S g := by
  have h2 := hS.half _ hS.pi
  have h4 := hS.half _ h2
  have e4 : Real.pi / 2 / 2 = Real.pi / 4 := by ring
  have n2 := hS.neg _ h2
  have n4 := hS.neg _ h4
  rw [e4] at h4 n4
  have e1 : Real.pi * 0.5 = Real.pi / 2 := by ring
  have e2 : -Real.pi * 0.5 = -(Real.pi / 2) := by ring
  cases k with
  | cu3 θ φ lam =>
    simp only [G2.fallbackOn, Option.some.injEq] at h
    subst h
    simp only [angles2, List.mem_cons, List.not_mem_nil, or_false, forall_eq_or_imp, forall_eq] at hk
    obtain ⟨a, b, c⟩ := hk
    have x1 : (lam - φ) / 2 ∈ S := hS.half _ (by rw [sub_eq_add_neg]; exact hS.add _ c _ (hS.neg _ b))
    have x2 : -(φ + lam) / 2 ∈ S := hS.half _ (hS.neg _ (hS.add _ b _ c))
    have x3 : -θ / 2 ∈ S := hS.half _ (hS.neg _ a)
    simp [-neg_add_rev, on1, on2, AnglesIn, angles1, angles2, x1, x2, x3, hS.zero, hS.half _ a, b]
  | ryy θ =>
    simp only [G2.fallbackOn, Option.some.injEq] at h
    subst h
    simp only [angles2, List.mem_cons, List.not_mem_nil, or_false, forall_eq_or_imp, forall_eq] at hk
    simp only [e1, e2]
    simp [on1, on2, AnglesIn, angles1, angles2, h2, n2, hk]
  | _ =>
    simp only [G2.fallbackOn, Option.some.injEq, reduceCtorEq] at h
    all_goals try subst h
    all_goals simp only [angles2, List.mem_cons, List.not_mem_nil, or_false, forall_eq_or_imp, forall_eq] at hk
    all_goals
      have hn := fun x hx => hS.neg x hx
      have hh := fun x hx => hS.half x hx
      simp_all [on1, on2, AnglesIn, angles1, angles2, neg_div]

/-- Fallback gates are neither CU2 nor CCZ. -/
theorem fallback_plain {g : Gate} {n : ℕ} {gs : List Gate} (h : g.fallback n = .ok gs) :
    ∀ g' ∈ gs, g'.NotCu2 ∧ g'.NotCcz := by
  cases g with
  | measure T => simp [Gate.fallback] at h
  | reset T => simp [Gate.fallback] at h
  | g3 k T =>
    cases k <;> simp only [Gate.fallback] at h
    · split at h <;> simp at h
      subst h
      simp [toffoliFallback, onItem, onItems, Gate.NotCu2, Gate.NotCcz]
    · simp at h
    · split at h <;> simp at h
      subst h
      simp [toffoliFallback, onItem, onItems, Gate.NotCu2, Gate.NotCcz]
  | g2 k T =>
    simp only [Gate.fallback] at h
    split at h
    · simp at h
    · rename_i f hf
      split at h <;> simp at h
      subst h
      intro g' hg
      obtain ⟨p, _, hp⟩ := List.mem_flatMap.1 hg
      exact plain_g2 hf _ _ g' hp
  | g1 k T =>
    by_cases hki : k = .i
    · subst hki; simp [Gate.fallback] at h; subst h; simp
    · have hf' : (match k.fallbackOn with
        | none => .error .notImplementedError
        | some f =>
          match (slicing T n).toList with
          | .error e => .error e
          | .ok ts => .ok (ts.flatMap f)) = (Except.ok gs : Except PyErr (List Gate)) := by
        rw [← h]; cases k <;> first | exact absurd rfl hki | rfl
      split at hf'
      · simp at hf'
      · rename_i f hf
        split at hf' <;> simp at hf'
        subst hf'
        intro g' hg
        obtain ⟨p, _, hp⟩ := List.mem_flatMap.1 hg
        exact plain_g1 hf _ g' hp

theorem fallback_angles {S : Set ℝ} (hS : AngleSet S) {g : Gate} (ha : AnglesIn S g) {n : ℕ} {gs : List Gate}
    (h : g.fallback n = .ok gs) : ∀ g' ∈ gs, AnglesIn S g' := by
  cases g with
  | measure T => simp [Gate.fallback] at h
  | reset T => simp [Gate.fallback] at h
  | g3 k T =>
    cases k <;> simp only [Gate.fallback] at h
    · split at h <;> simp at h
      subst h
      simp [toffoliFallback, onItem, onItems, AnglesIn, angles1, angles2]
    · simp at h
    · split at h <;> simp at h
      subst h
      simp [toffoliFallback, onItem, onItems, AnglesIn, angles1, angles2]
  | g2 k T =>
    simp only [Gate.fallback] at h
    split at h
    · simp at h
    · rename_i f hf
      split at h <;> simp at h
      subst h
      intro g' hg
      obtain ⟨p, _, hp⟩ := List.mem_flatMap.1 hg
      exact angles_g2 hS ha hf _ _ g' hp
  | g1 k T =>
    by_cases hki : k = .i
    · subst hki; simp [Gate.fallback] at h; subst h; simp
    · have hf' : (match k.fallbackOn with
        | none => .error .notImplementedError
        | some f =>
          match (slicing T n).toList with
          | .error e => .error e
          | .ok ts => .ok (ts.flatMap f)) = (Except.ok gs : Except PyErr (List Gate)) := by
        rw [← h]; cases k <;> first | exact absurd rfl hki | rfl
      split at hf'
      · simp at hf'
      · rename_i f hf
        split at hf' <;> simp at hf'
        subst hf'
        intro g' hg
        obtain ⟨p, _, hp⟩ := List.mem_flatMap.1 hg
        exact angles_g1 hS ha hf _ g' hp

/-- Every number written in the lines is in `S`, if the angles of the gate are. -/
def NumbersIn (g : Gate) (lines : List QLine) : Prop :=
  ∀ S, AngleSet S → AnglesIn S g → ∀ l ∈ lines, ∀ x ∈ l.stmt.params, x ∈ S

theorem numbers_native {n : ℕ} {g : Gate} {es : List Elem} {lines : List QLine} (hd : GateDenotes n g es)
    (hl : LinesOf es lines) : NumbersIn g lines := by
  intro S hS ha
  have key : ∀ (e : Elem) (l : QLine), e ∈ es → lineOf e = some l → ∀ x ∈ l.stmt.params, x ∈ S := by
    intro e l he h
    cases g with
    | g1 k T =>
      obtain ⟨L, hL, rfl⟩ := hd
      obtain ⟨t, -, rfl⟩ := List.mem_map.1 he
      cases k <;> simp [lineOf, stmt1] at h <;> subst h <;> simpa [AnglesIn, angles1, QStmt.params] using ha
    | g2 k T =>
      obtain ⟨L, hL, rfl⟩ := hd
      obtain ⟨t, -, rfl⟩ := List.mem_map.1 he
      cases k <;> simp [lineOf, stmt2] at h <;> subst h <;> simpa [AnglesIn, angles2, QStmt.params] using ha
    | g3 k T =>
      obtain ⟨x, y, z, rfl, rfl⟩ := hd
      simp only [List.mem_singleton] at he
      subst he
      cases k <;> simp [lineOf, stmt3] at h <;> subst h <;> simp [QStmt.params]
    | measure T =>
      obtain ⟨L, hL, rfl⟩ := hd
      obtain ⟨t, -, rfl⟩ := List.mem_map.1 he
      simp [lineOf] at h; subst h; simp [QStmt.params]
    | reset T =>
      obtain ⟨L, hL, rfl⟩ := hd
      obtain ⟨t, -, rfl⟩ := List.mem_map.1 he
      simp [lineOf] at h; subst h; simp [QStmt.params]
  clear hd
  induction hl with
  | nil => simp
  | cons h1 _ ih =>
    intro l hl
    rcases List.mem_cons.1 hl with rfl | hl
    · exact key _ _ (by simp) h1
    · exact ih (fun e l he => key e l (by simp [he])) l hl

theorem qa_hasFallback {n : ℕ} {g : Gate} (h : qaAction fmt n g = none) (hz : g.NotCcz) : g.hasFallback = true := by
  cases g with
  | g1 k T => cases k <;> first | rfl | simp [qaAction, qaHead1] at h
  | g2 k T => cases k <;> first | rfl | simp [qaAction, qaHead2] at h
  | g3 k T => cases k <;> first | rfl | exact absurd hz id | simp [qaAction, qaHead3] at h
  | measure T => simp [qaAction] at h
  | reset T => simp [qaAction] at h

/-- What the backend appends for a gate. -/
def Emits (n fuel : ℕ) (g : Gate) (es : List Elem) : Prop :=
  ∃ fs lines, (∀ f ∈ fs, f.Valid n) ∧ (∀ s, steps phDoc n es s = steps phDoc n fs s) ∧
    (g.NotCu2 → ∀ f ∈ fs, Elem.NotCu2 f) ∧ LinesOf fs lines ∧ NumbersIn g lines ∧
    ∀ l, runGate (qaAction fmt n) n fuel g l = .ok (l ++ lines.map (QLine.text fmt))

theorem runGate_emits {n : ℕ} (fuel : ℕ) : ∀ (g : Gate), g.rank < fuel → g.NotCcz → ∀ (es : List Elem),
    GateDenotes n g es → (∀ e ∈ es, e.Valid n) → Emits fmt n fuel g es := by
  induction fuel with
  | zero => intro g hg; omega
  | succ fuel ih =>
    intro g hr hz es hd hv
    rcases Option.eq_none_or_eq_some (qaAction fmt n g) with hact | ⟨a, hact⟩
    · obtain ⟨gs, hgs⟩ := fallback_ok (qa_hasFallback fmt hact hz) hd
      obtain ⟨fs, hfs, hfv, hfu⟩ := fallback_implements phDoc g es gs hd hv hgs
        (fun θ T h => by subst h; simp [qaAction, qaHead1] at hact)
        (fun lam T h => by subst h; simp [qaAction, qaHead2] at hact)
      have hes := unitary_of_fallback (qa_hasFallback fmt hact hz) hd
      have hsame : ∀ u, steps phDoc n es u = steps phDoc n fs u := by
        intro u
        rw [steps_unitary phDoc n es hes, steps_unitary phDoc n fs (fun e he => (hfv e he).2), hfu]
      have hrk := rank_fallback hgs
      have hpl := fallback_plain hgs
      have hlist : ∀ (gs : List Gate) (fs : List Elem), (∀ g' ∈ gs, g'.rank < fuel) →
          (∀ g' ∈ gs, g'.NotCu2 ∧ g'.NotCcz) → GatesDenote n gs fs → (∀ e ∈ fs, e.Valid n) →
          ∃ ks lines, (∀ f ∈ ks, f.Valid n) ∧ (∀ s, steps phDoc n fs s = steps phDoc n ks s) ∧
            (∀ f ∈ ks, Elem.NotCu2 f) ∧ LinesOf ks lines ∧
            (∀ S, AngleSet S → (∀ g' ∈ gs, AnglesIn S g') → ∀ l ∈ lines, ∀ x ∈ l.stmt.params, x ∈ S) ∧
            ∀ l, gs.foldlM (fun s g' => runGate (qaAction fmt n) n fuel g' s) l =
              .ok (l ++ lines.map (QLine.text fmt)) := by
        intro gs
        induction gs with
        | nil =>
          intro fs _ _ hd _
          simp only [GatesDenote] at hd
          subst hd
          exact ⟨[], [], by simp, fun _ => rfl, by simp, .nil, by simp, fun l => by simp; rfl⟩
        | cons g' gs ih' =>
          rintro fs hrk hpl ⟨e₁, e₂, h1, h2, rfl⟩ hv
          obtain ⟨k1, l1, a1, a2, a3, a4, a6, a5⟩ := ih g' (hrk g' (by simp)) (hpl g' (by simp)).2 e₁ h1
            (fun e he => hv e (by simp [he]))
          obtain ⟨k2, l2, b1, b2, b3, b4, b6, b5⟩ := ih' e₂ (fun g hg => hrk g (by simp [hg]))
            (fun g hg => hpl g (by simp [hg])) h2 (fun e he => hv e (by simp [he]))
          refine ⟨k1 ++ k2, l1 ++ l2, ?_, ?_, ?_, List.rel_append a4 b4, ?_, ?_⟩
          · intro f hf
            rcases List.mem_append.1 hf with h | h
            · exact a1 f h
            · exact b1 f h
          · intro s; rw [steps_append, steps_append, a2, b2]
          · intro f hf
            rcases List.mem_append.1 hf with h | h
            · exact a3 (hpl g' (by simp)).1 f h
            · exact b3 f h
          · intro S hS ha l hl
            rcases List.mem_append.1 hl with h | h
            · exact a6 S hS (ha g' (by simp)) l h
            · exact b6 S hS (fun g hg => ha g (by simp [hg])) l h
          · intro l
            rw [List.foldlM_cons, a5]
            show List.foldlM _ _ gs = _
            rw [b5]; simp
      obtain ⟨ks, lines, c1, c2, c3, c4, c6, c5⟩ := hlist gs fs (fun g' hg' => by have := hrk g' hg'; omega) hpl hfs
        (fun e he => (hfv e he).1)
      refine ⟨ks, lines, c1, fun s => by rw [hsame, c2], fun _ => c3, c4,
        fun S hS ha => c6 S hS (fallback_angles hS ha hgs), fun l => ?_⟩
      simp only [runGate, hact, hgs]
      exact c5 l
    · obtain ⟨lines, h1, h2⟩ := native fmt hact hd
      refine ⟨es, lines, hv, fun _ => rfl, notCu2_denotes hd, h1, numbers_native hd h1, fun l => ?_⟩
      simp only [runGate, hact]
      exact h2 l

/-! ## Meaning -/

theorem prob_smul {n t : ℕ} {b : Bool} {z : ℂ} (hz : ‖z‖ = 1) (ψ : Vec) :
    prob n t b (fun i => z * ψ i) = prob n t b ψ := by
  simp [prob, hz]

theorem collapse_smul {n t : ℕ} {b : Bool} {z : ℂ} (hz : ‖z‖ = 1) (ψ : Vec) :
    collapse n t b (fun i => z * ψ i) = fun i => z * collapse n t b ψ i := by
  funext i
  simp only [collapse, prob_smul hz]
  split_ifs <;> simp [mul_div_assoc]

theorem same_gate {n : ℕ} {bs : List Basic} {e : Elem} (he : e.IsUnitary)
    (h : EqPh (applyAll bs) (e.unitary phDoc)) {s u : MState} (hs : SameUpToPhase s u) :
    SameUpToPhase { s with psi := applyAll bs s.psi } (e.step phDoc n u) := by
  obtain ⟨h1, h2, z, hz, h3⟩ := hs
  obtain ⟨w, hw, h⟩ := h
  have : e.step phDoc n u = { u with psi := e.unitary phDoc u.psi } := by
    cases e <;> first | rfl | exact absurd he id
  rw [this]
  refine ⟨h1, h2, w * z, by simp [hz, hw], ?_⟩
  show applyAll bs s.psi = _
  rw [h, h3, elem_smul]
  funext i; ring

/-- The library has the gates of `qelib1.inc`. -/
def HasQelib (lib : String → List ℝ → List ℕ → Option (List Basic)) : Prop :=
  ∀ nm ps qs, nm ≠ "cu2" → lib nm ps qs = qelib nm ps qs

/-- The library has the gate `cu2`. -/
def HasCu2 (lib : String → List ℝ → List ℕ → Option (List Basic)) : Prop :=
  ∀ φ lam qs, lib "cu2" [φ, lam] qs = qelib "cu3" [Real.pi / 2, φ, lam] qs

theorem hasQelib_qelib : HasQelib qelib := fun _ _ _ _ => rfl
theorem hasQelib_cu2 : HasQelib qelibCu2 := by
  intro nm ps qs h
  unfold qelibCu2
  split
  · exact absurd rfl h
  · rfl
theorem hasCu2_cu2 : HasCu2 qelibCu2 := fun _ _ _ => rfl

theorem stmt_step {lib : String → List ℝ → List ℕ → Option (List Basic)} (hl : HasQelib lib) {n : ℕ} {e : Elem} {l : QLine} (h : lineOf e = some l) (hv : e.Valid n) (hc : Elem.NotCu2 e ∨ HasCu2 lib)
    {s u : MState} (hs : SameUpToPhase s u) :
    ∃ s', l.stmt.step lib n s = some s' ∧ SameUpToPhase s' (e.step phDoc n u) := by
  cases e with
  | one k t =>
    have key : ∀ (b : Basic) nm ps cm, stmt1 k = some (nm, ps, cm) → nm ≠ "cu2" → qelib1 nm ps t = some b →
        EqPh b.apply (app (matrix1 k) t) →
        ∃ s', l.stmt.step lib n s = some s' ∧ SameUpToPhase s' ((Elem.one k t).step phDoc n u) := by
      intro b nm ps cm h1 hn h2 h3
      simp only [lineOf, h1, Option.map_some, Option.some.injEq] at h
      subst h
      refine ⟨_, by simp only [QStmt.step, hl _ _ _ hn, qelib, h2, Option.map_some]; rfl, ?_⟩
      exact same_gate (e := .one k t) trivial (eqPh_one h3) hs
    cases k
    · exact key _ _ _ _ rfl (by decide) rfl (by
        have : mU3 0 0 0 = mI := by rw [mU3_zero, mRZ_zero, mI_eq_one]
        exact eqPh_u t 1 (by simp) (by rw [this]; exact (one_mul _).symm))
    · exact key _ _ _ _ rfl (by decide) rfl (eqPh_x t)
    · exact key _ _ _ _ rfl (by decide) rfl (eqPh_y t)
    · exact key _ _ _ _ rfl (by decide) rfl (eqPh_z t)
    · exact key _ _ _ _ rfl (by decide) rfl (eqPh_h t)
    · exact key _ _ _ _ rfl (by decide) rfl (eqPh_t t)
    · simp [lineOf, stmt1] at h
    · exact key _ _ _ _ rfl (by decide) rfl (eqPh_s t)
    · simp [lineOf, stmt1] at h
    · exact key _ _ _ _ rfl (by decide) rfl (by rw [matrix1, ← mU3_rx]; exact eqPh_refl _)
    · exact key _ _ _ _ rfl (by decide) rfl (by rw [matrix1, ← mU3_ry]; exact eqPh_refl _)
    · exact key _ _ _ _ rfl (by decide) rfl (eqPh_rz _ t)
    · exact key _ _ _ _ rfl (by decide) rfl (eqPh_phase _ t)
    · exact key _ _ _ _ rfl (by decide) rfl (eqPh_rz _ t)
    · exact key _ _ _ _ rfl (by decide) rfl (eqPh_u3 _ _ _ t)
    · exact key _ _ _ _ rfl (by decide) rfl (eqPh_u3 _ _ _ t)
  | two k c t =>
    have key : ∀ (bs : List Basic) nm ps, stmt2 k = some (nm, ps) → lib nm ps [c, t] = some bs →
        EqPh (applyAll bs) (op2 phDoc k c t) →
        ∃ s', l.stmt.step lib n s = some s' ∧ SameUpToPhase s' ((Elem.two k c t).step phDoc n u) := by
      intro b nm ps h1 h2 h3
      simp only [lineOf, h1, Option.map_some, Option.some.injEq] at h
      subst h
      refine ⟨_, by simp only [QStmt.step, h2, Option.map_some]; rfl, ?_⟩
      exact same_gate (e := .two k c t) trivial h3 hs
    have hct := hv.2.2
    cases k
    · exact key _ _ _ rfl (hl _ _ _ (by decide)) (eqPh_one (eqPh_cx c t))
    · exact key _ _ _ rfl (hl _ _ _ (by decide)) (qelib_cz hct)
    · exact key _ _ _ rfl (hl _ _ _ (by decide)) (qelib_cy hct)
    · exact key _ _ _ rfl (hl _ _ _ (by decide)) (qelib_ch hct)
    · simp [lineOf, stmt2] at h
    · simp [lineOf, stmt2] at h
    · simp [lineOf, stmt2] at h
    · exact key _ _ _ rfl (hl _ _ _ (by decide)) (qelib_cu1 hct _)
    · simp [lineOf, stmt2] at h
    · simp [lineOf, stmt2] at h
    · simp [lineOf, stmt2] at h
    · exact key _ _ _ rfl (hl _ _ _ (by decide)) (qelib_swap hct)
    · exact key _ _ _ rfl (hl _ _ _ (by decide)) (eqPh_congr (qelib_cu1 hct _) fun ψ => by simp [op2, phDoc])
    · rcases hc with hc | hc
      · exact absurd hc id
      · exact key _ _ _ rfl (hc _ _ _) (qelib_cu3 hct _ _ _)
    · exact key _ _ _ rfl (hl _ _ _ (by decide)) (qelib_cu3 hct _ _ _)
  | three k a b t =>
    obtain ⟨-, -, -, hab, hat, hbt⟩ := hv
    cases k
    · simp only [lineOf, stmt3, Option.map_some, Option.some.injEq] at h
      subst h
      exact ⟨_, by simp only [QStmt.step, hl "ccx" _ _ (by decide)]; rfl, same_gate (e := .three .ccx a b t) trivial (qelib_ccx hab hat hbt) hs⟩
    · simp [lineOf, stmt3] at h
    · simp only [lineOf, stmt3, Option.map_some, Option.some.injEq] at h
      subst h
      exact ⟨_, by simp only [QStmt.step, hl "cswap" _ _ (by decide)]; rfl, same_gate (e := .three .cswap a b t) trivial (qelib_cswap hab hat hbt) hs⟩
  | meas t =>
    obtain ⟨h1, h2, z, hz, h3⟩ := hs
    simp only [lineOf, Option.some.injEq] at h
    subst h
    simp only [QStmt.step, Elem.step, h1, h2, h3, prob_smul hz, collapse_smul hz]
    split_ifs
    · exact ⟨_, rfl, rfl, rfl, z, hz, rfl⟩
    · exact ⟨_, rfl, rfl, rfl, z, hz, rfl⟩
  | reset t =>
    obtain ⟨h1, h2, z, hz, h3⟩ := hs
    simp only [lineOf, Option.some.injEq] at h
    subst h
    simp only [QStmt.step, Elem.step, h1, h2, h3, prob_smul hz, collapse_smul hz]
    have := fun χ => elem_smul phDoc (.one .x t) z χ
    simp only [Elem.unitary, matrix1] at this
    split_ifs
    · exact ⟨_, rfl, rfl, rfl, z, hz, rfl⟩
    · exact ⟨_, rfl, rfl, rfl, z, hz, this _⟩

theorem lines_run {lib : String → List ℝ → List ℕ → Option (List Basic)} (hlib : HasQelib lib) {n : ℕ} {fs : List Elem} {lines : List QLine} (h : LinesOf fs lines) (hv : ∀ f ∈ fs, f.Valid n)
    (hc : (∀ f ∈ fs, Elem.NotCu2 f) ∨ HasCu2 lib) : ∀ {s u : MState}, SameUpToPhase s u →
    ∃ s', qasmRun lib n (lines.map QLine.stmt) s = some s' ∧ SameUpToPhase s' (steps phDoc n fs u) := by
  induction h with
  | nil => intro s u hs; exact ⟨s, rfl, hs⟩
  | cons h1 _ ih =>
    intro s u hs
    obtain ⟨s1, a1, a2⟩ := stmt_step hlib h1 (hv _ (by simp)) (hc.imp (fun h => h _ (by simp)) id) hs
    obtain ⟨s2, b1, b2⟩ := ih (fun f hf => hv f (by simp [hf])) (hc.imp (fun h f hf => h f (by simp [hf])) id) a2
    refine ⟨s2, ?_, b2⟩
    simp only [qasmRun, List.map_cons, List.foldlM_cons, a1]
    exact b1

theorem same_refl (s : MState) : SameUpToPhase s s := ⟨rfl, rfl, 1, by simp, by simp⟩

theorem stmt1_ident {k : G1} {nm ps cm} (h : stmt1 k = some (nm, ps, cm)) :
    IsIdent nm ∧ ∀ c, cm = some c → '\n' ∉ c.toList := by
  cases k <;> simp only [stmt1, Option.some.injEq, Prod.mk.injEq, reduceCtorEq] at h <;>
    obtain ⟨rfl, rfl, rfl⟩ := h <;>
    refine ⟨⟨⟨_, _, rfl, by decide, by decide⟩, by decide⟩, ?_⟩ <;> simp

theorem stmt2_ident {k : G2} {nm ps} (h : stmt2 k = some (nm, ps)) : IsIdent nm := by
  cases k <;> simp only [stmt2, Option.some.injEq, Prod.mk.injEq, reduceCtorEq] at h <;>
    obtain ⟨rfl, rfl⟩ := h <;> exact ⟨⟨_, _, rfl, by decide, by decide⟩, by decide⟩

theorem stmt3_ident {k : G3} {nm} (h : stmt3 k = some nm) : IsIdent nm := by
  cases k <;> simp only [stmt3, Option.some.injEq, reduceCtorEq] at h <;>
    subst h <;> exact ⟨⟨_, _, rfl, by decide, by decide⟩, by decide⟩

theorem line_wf {n : ℕ} {e : Elem} {l : QLine} (h : lineOf e = some l) (hv : e.Valid n) : l.WellFormed n := by
  cases e with
  | one k t =>
    simp only [lineOf, Option.map_eq_some_iff] at h
    obtain ⟨⟨nm, ps, cm⟩, h1, rfl⟩ := h
    obtain ⟨h2, h3⟩ := stmt1_ident h1
    exact ⟨⟨h2, by simp, by simp, by simpa [Elem.Valid] using hv⟩, h3⟩
  | two k c t =>
    simp only [lineOf, Option.map_eq_some_iff] at h
    obtain ⟨⟨nm, ps⟩, h1, rfl⟩ := h
    obtain ⟨a1, a2, a3⟩ := hv
    exact ⟨⟨stmt2_ident h1, by simp, by simpa using a3, by simp [a1, a2]⟩, by simp⟩
  | three k a b c =>
    simp only [lineOf, Option.map_eq_some_iff] at h
    obtain ⟨nm, h1, rfl⟩ := h
    obtain ⟨a1, a2, a3, a4, a5, a6⟩ := hv
    exact ⟨⟨stmt3_ident h1, by simp, by simp [a4, a5, a6], by simp [a1, a2, a3]⟩, by simp⟩
  | meas t =>
    simp only [lineOf, Option.some.injEq] at h
    subst h
    exact ⟨⟨hv, hv⟩, by simp⟩
  | reset t =>
    simp only [lineOf, Option.some.injEq] at h
    subst h
    exact ⟨hv, by simp⟩

theorem lines_wf {n : ℕ} {fs : List Elem} {lines : List QLine} (h : LinesOf fs lines) (hv : ∀ f ∈ fs, f.Valid n) :
    ∀ l ∈ lines, l.WellFormed n := by
  induction h with
  | nil => simp
  | cons h1 _ ih =>
    intro l hl
    rcases List.mem_cons.1 hl with rfl | hl
    · exact line_wf h1 (hv _ (by simp))
    · exact ih (fun f hf => hv f (by simp [hf])) l hl

theorem pyJoin_eq (sep : String) (l : List String) : pyJoin sep l = joinWith sep l := by
  induction l with
  | nil => rfl
  | cons a l ih =>
    cases l with
    | nil => rfl
    | cons b l => simp only [pyJoin, joinWith, ih]

end

end Blueqat
