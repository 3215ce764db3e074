import Verif.Props.Wrapper
import Verif.WorldLemmas

/-!
# Property C110 and whole programs

A program that writes gates with wrappers leaves its circuits as the program that appends the same gates one by one, so everything
proved of those programs (C06, C09, C55, C109) is true after it.
-/

namespace Blueqat

open Spec (view SameCircuits)

section
variable {V M C B A R : Type}

theorem makeGate_targets {cls : String} {T : Targets} {c : PyCall} {o : GateObj} (h : makeGate cls T c = .ok o) : o.targets = T := by
  unfold makeGate at h
  repeat' split at h
  all_goals first | (cases h; rfl) | cases h

theorem gateSet_targets {name : String} {xs : List ℝ} {T : Targets} {g : Gate} (h : gateSet name xs T = some g) : g.targets = T := by
  unfold gateSet at h
  split at h
  · cases h; rfl
  · split at h
    · cases h; rfl
    · unfold gateSetOther at h
      repeat' split at h
      all_goals first | (cases h; rfl) | cases h

theorem toGate_targets {o : GateObj} {g : Gate} (h : o.toGate = some g) : g.targets = o.targets := by
  unfold GateObj.toGate at h
  repeat' split at h
  all_goals first | exact gateSet_targets h | cases h

theorem step_ops_mono (ww : WrapWorld) (c : WrapCmd) (i : ℕ) {o : GateObj} (h : o ∈ (ww.circs i).ops) :
    o ∈ ((ww.step c).1.circs i).ops := by
  cases c with
  | attr j name => simp only [WrapWorld.step]; split <;> exact h
  | call k c => simp only [WrapWorld.step]; split <;> exact h
  | item k T =>
    simp only [WrapWorld.step]
    split
    · exact h
    · rename_i g _
      simp only
      split_ifs with hi
      · subst hi
        simp only [GateWrapper.getItem]
        split
        · exact h
        · split <;> exact List.mem_append_left _ h
      · exact h

theorem exec_ops_mono (h : List WrapCmd) : ∀ (ww : WrapWorld) (i : ℕ) {o : GateObj}, o ∈ (ww.circs i).ops → o ∈ ((ww.exec h).circs i).ops := by
  induction h with
  | nil => intro ww i o ho; exact ho
  | cons c h ih => intro ww i o ho; exact ih _ i (step_ops_mono ww c i ho)

/-- One subscript of a wrapper is one append. -/
theorem same_item (kit : Kit C B A R) (isAttr : String → Bool) {w : World V M C B} (wf : w.WF) {ww : WrapWorld} (hs : SameCircuits w ww)
    {k : ℕ} {g : GateWrapper} (hk : ww.wraps[k]? = some g) (hg : g.circ < w.nCircs) (T : Targets) {o : GateObj}
    (ho : makeGate g.cls T g.call = .ok o) {gt : Gate} (hgt : o.toGate = some gt) :
    SameCircuits (w.step kit isAttr (.append g.circ gt : Cmd V M C A)).1 (ww.step (.item k T)).1 ∧
      ((ww.step (.item k T)).2 = Option.none ↔ (w.step kit isAttr (.append g.circ gt : Cmd V M C A)).2 = .ok (.circuit g.circ)) ∧
      (∀ e, (ww.step (.item k T)).2 = some e ↔ (w.step kit isAttr (.append g.circ gt : Cmd V M C A)).2 = .error e) ∧
      (w.step kit isAttr (.append g.circ gt : Cmd V M C A)).1.nCircs = w.nCircs := by
  have hT : gt.targets = T := (toGate_targets hgt).trans (makeGate_targets ho)
  obtain ⟨hn, hops⟩ := hs g.circ hg
  have hne : ∀ j < w.nCircs, j ≠ g.circ → (w.circs j).ops ≠ (w.circs g.circ).ops := fun j hj h => wf.ops_inj j hj _ hg h
  simp only [view] at hn hops
  simp only [WrapWorld.step, hk, World.step, World.onCirc, hg, if_true, hT, GateWrapper.getItem, ho]
  cases hmx : getMaximumIndex T with
  | error e =>
    refine ⟨fun j hj => ?_, by simp, by simp [eq_comm], rfl⟩
    by_cases hj' : j = g.circ
    · subst hj'
      simp only [view, Function.update_self, if_true]
      exact ⟨hn, List.rel_append hops (List.Forall₂.cons hgt List.Forall₂.nil)⟩
    · have := hs j hj
      simp only [view] at this
      simp only [view, hj', if_false, Function.update_of_ne (hne j hj hj')]
      exact this
  | ok mx =>
    refine ⟨fun j hj => ?_, by simp, by simp, rfl⟩
    by_cases hj' : j = g.circ
    · subst hj'
      simp only [view, Function.update_self, if_true]
      exact ⟨by rw [hn], List.rel_append hops (List.Forall₂.cons hgt List.Forall₂.nil)⟩
    · have := hs j hj
      simp only [view] at this
      simp only [view, hj', if_false, Function.update_of_ne hj', Function.update_of_ne (hne j hj hj')]
      exact this

theorem wraps_step {n : ℕ} {ww : WrapWorld} (hw : ∀ g ∈ ww.wraps, g.circ < n) {c : WrapCmd} (hc : ∀ i name, c = .attr i name → i < n) :
    ∀ g ∈ (ww.step c).1.wraps, g.circ < n := by
  cases c with
  | attr i name =>
    simp only [WrapWorld.step]
    split
    · exact hw
    · intro g hg
      rcases List.mem_append.1 hg with h | h
      · exact hw g h
      · rw [List.mem_singleton.1 h]; exact hc i name rfl
  | call k c =>
    simp only [WrapWorld.step]
    split
    · exact hw
    · rename_i g0 h0
      intro g hg
      rcases List.mem_or_eq_of_mem_set hg with h | h
      · exact hw g h
      · rw [h]; exact hw g0 (List.mem_of_getElem? h0)
  | item k T =>
    simp only [WrapWorld.step]
    split
    · exact hw
    · rename_i g0 h0
      intro g hg
      rcases List.mem_or_eq_of_mem_set hg with h | h
      · exact hw g h
      · rw [h]; exact hw g0 (List.mem_of_getElem? h0)

theorem programs_aux (kit : Kit C B A R) (isAttr : String → Bool) (h : List WrapCmd) : ∀ (w : World V M C B) (ww : WrapWorld), w.WF →
    SameCircuits w ww → (∀ g ∈ ww.wraps, g.circ < w.nCircs) → (∀ i name, WrapCmd.attr i name ∈ h → i < w.nCircs) →
    (∀ i < w.nCircs, ∀ o ∈ ((ww.exec h).circs i).ops, o.toGate ≠ Option.none) →
    ∃ cmds : List (ℕ × Gate), SameCircuits (w.exec kit isAttr (cmds.map fun p => (.append p.1 p.2 : Cmd V M C A))) (ww.exec h) ∧
      (w.exec kit isAttr (cmds.map fun p => (.append p.1 p.2 : Cmd V M C A))).nCircs = w.nCircs := by
  induction h with
  | nil => intro w ww wf hs _ _ _; exact ⟨[], hs, rfl⟩
  | cons c h ih =>
    intro w ww wf hs hw ha hn
    have hw' := wraps_step (c := c) hw (fun i name hc => ha i name (by rw [hc]; exact List.mem_cons_self))
    have ha' : ∀ i name, WrapCmd.attr i name ∈ h → i < w.nCircs := fun i name hi => ha i name (List.mem_cons_of_mem _ hi)
    have quiet : (ww.step c).1.circs = ww.circs → ∃ cmds : List (ℕ × Gate),
        SameCircuits (w.exec kit isAttr (cmds.map fun p => (.append p.1 p.2 : Cmd V M C A))) (ww.exec (c :: h)) ∧
        (w.exec kit isAttr (cmds.map fun p => (.append p.1 p.2 : Cmd V M C A))).nCircs = w.nCircs := fun hq =>
      ih w (ww.step c).1 wf (fun j hj => by rw [hq]; exact hs j hj) hw' ha' hn
    cases c with
    | attr i name => exact quiet (by simp only [WrapWorld.step]; split <;> rfl)
    | call k c => exact quiet (by simp only [WrapWorld.step]; split <;> rfl)
    | item k T =>
      cases hk : ww.wraps[k]? with
      | none => exact quiet (by simp only [WrapWorld.step, hk])
      | some g =>
        have hg := hw g (List.mem_of_getElem? hk)
        cases ho : makeGate g.cls T g.call with
        | error e =>
          refine quiet ?_
          simp only [WrapWorld.step, hk, GateWrapper.getItem, ho]
          funext j
          split_ifs with hj
          · rw [hj]
          · rfl
        | ok o =>
          have hmem : o ∈ ((ww.step (.item k T)).1.circs g.circ).ops := by
            simp only [WrapWorld.step, hk, GateWrapper.getItem, ho, if_true]
            split <;> simp
          obtain ⟨gt, hgt⟩ := Option.ne_none_iff_exists'.1 (hn g.circ hg o (exec_ops_mono h _ _ hmem))
          obtain ⟨h1, -, -, h2⟩ := same_item kit isAttr wf hs hk hg T ho hgt
          obtain ⟨cmds, h3, h4⟩ := ih (w.step kit isAttr (.append g.circ gt : Cmd V M C A)).1 (ww.step (.item k T)).1
            (frame_step kit isAttr wf _).wf h1 (by rw [h2]; exact hw') (by rw [h2]; exact ha') (by rw [h2]; exact hn)
          exact ⟨(g.circ, gt) :: cmds, h3, h4.trans h2⟩

theorem appends_keep (kit : Kit C B A R) (isAttr : String → Bool) (cmds : List (ℕ × Gate)) : ∀ (w : World V M C B) (i : ℕ),
    (view (w.exec kit isAttr (cmds.map fun p => (.append p.1 p.2 : Cmd V M C A))) i).dflt = (view w i).dflt ∧
      (view (w.exec kit isAttr (cmds.map fun p => (.append p.1 p.2 : Cmd V M C A))) i).bes = (view w i).bes := by
  induction cmds with
  | nil => intro w i; exact ⟨rfl, rfl⟩
  | cons p l ih =>
    intro w i
    have h := ih (w.step kit isAttr (.append p.1 p.2 : Cmd V M C A)).1 i
    refine ⟨h.1.trans ?_, h.2.trans ?_⟩ <;>
      (simp only [World.step, World.onCirc]
       split_ifs
       · split
         · rfl
         · by_cases hi : i = p.1
           · subst hi; simp [view]
           · simp [view, Function.update_of_ne hi]
       · rfl)

/-- **C110, whole programs.** After any program `h0`, let a program `h` write gates with wrappers of the circuits there are, all with
numbers as parameters. Then there is a list of plain appends after which every circuit holds the same gates and has the same size, its
default backend and its backend instances being untouched. -/
theorem C110_programs (kit : Kit C B A R) (isAttr : String → Bool) (b : B) (reg : Registry V M C) (h0 : List (Cmd V M C A))
    (c0 : ℕ → WrapCirc) (hs : SameCircuits ((World.start b reg).exec kit isAttr h0) (WrapWorld.start c0)) (h : List WrapCmd)
    (ha : ∀ i name, WrapCmd.attr i name ∈ h → i < ((World.start b reg).exec kit isAttr h0).nCircs)
    (hn : ∀ i < ((World.start b reg).exec kit isAttr h0).nCircs, ∀ o ∈ (((WrapWorld.start c0).exec h).circs i).ops,
      o.toGate ≠ Option.none) :
    ∃ cmds : List (ℕ × Gate), ∀ w : World V M C B,
      w = (World.start b reg).exec kit isAttr (h0 ++ cmds.map fun p => (.append p.1 p.2 : Cmd V M C A)) →
      SameCircuits w ((WrapWorld.start c0).exec h) ∧ w.nCircs = ((World.start b reg).exec kit isAttr h0).nCircs ∧
        ∀ i, (view w i).dflt = (view ((World.start b reg).exec kit isAttr h0) i).dflt ∧
          (view w i).bes = (view ((World.start b reg).exec kit isAttr h0) i).bes := by
  obtain ⟨cmds, h1, h2⟩ := programs_aux kit isAttr h _ _ (WF_exec kit isAttr (WF_start b reg) h0) hs (by simp [WrapWorld.start]) ha hn
  refine ⟨cmds, fun w hw => ?_⟩
  have e : w = ((World.start b reg).exec kit isAttr h0).exec kit isAttr (cmds.map fun p => (.append p.1 p.2 : Cmd V M C A)) := by
    rw [hw]; simp only [World.exec, List.foldl_append]
  rw [e]
  exact ⟨h1, h2, fun i => appends_keep kit isAttr cmds _ i⟩

/-- A program that meets the hypotheses: `c = Circuit(); x = c.x; x[1]; x[0]`. -/
example (kit : Kit C B A R) (isAttr : String → Bool) (b : B) (reg : Registry V M C) :
    ((World.start b reg).exec kit isAttr [(.new 0 : Cmd V M C A)]).nCircs = 1 ∧
      SameCircuits ((World.start b reg).exec kit isAttr [(.new 0 : Cmd V M C A)]) (WrapWorld.start fun _ => ⟨0, []⟩) ∧
      (((WrapWorld.start fun _ => ⟨0, []⟩).exec [.attr 0 "x", .item 0 (.one (.int 1)), .item 0 (.one (.int 0))]).circs 0).ops.map
        GateObj.toGate = [some (.g1 .x (.one (.int 1))), some (.g1 .x (.one (.int 0)))] := by
  refine ⟨rfl, fun j hj => ?_, rfl⟩
  have : j = 0 := by simpa [World.exec, World.step, World.start, World.alloc] using hj
  subst this
  exact ⟨rfl, by simp [World.exec, World.step, World.start, World.alloc, view, WrapWorld.start]⟩

end

end Blueqat
