import Verif.OpsNames
import Verif.Props.Calls
import Verif.Props.Repr

/-!
# C105: the gate names and the text of `Ops`
-/

set_option linter.unusedSimpArgs false
set_option linter.unusedVariables false

namespace Blueqat

open Spec (Given Binds paramNames IsNumber SameGate PyNumbers readCircuit subscript writtenNumbers Plain GrownTo)

/-- C105, exactly: the names of `Ops` stand for the same classes as those of `Circuit`; five names are missing. -/
theorem C105_names_partial (name : String) :
    opsGateClass name = if name ∈ ["rxx", "ryy", "rzz", "cswap", "reset"] then none else gateClass name := by
  split_ifs with h
  · simp only [List.mem_cons, List.not_mem_nil, or_false] at h
    rcases h with rfl | rfl | rfl | rfl | rfl <;> rfl
  · simp only [List.mem_cons, List.not_mem_nil, or_false, not_or] at h
    obtain ⟨h1, h2, h3, h4, h5⟩ := h
    unfold opsGateClass
    split
    all_goals try rfl
    unfold gateClass
    split
    all_goals first | rfl | (exact absurd rfl ‹_›) | skip

/-- C105, violated: `Ops` has no rxx, ryy, rzz, cswap and reset (AttributeError), which `Circuit` has. -/
theorem C105_missing_refuted (n : ℕ) (c : PyCall) (T : Targets) (name : String) (h : name ∈ ["rxx", "ryy", "rzz", "cswap", "reset"]) :
    opsCall n name c T = .error .attributeError ∧ ∃ cls, gateClass name = some cls := by
  simp only [List.mem_cons, List.not_mem_nil, or_false] at h
  rcases h with rfl | rfl | rfl | rfl | rfl <;> exact ⟨rfl, _, rfl⟩

/-- `Ops(2).reset[0]` and `Ops(2).swap[0, 1]`. -/
example : opsCall 2 "reset" ⟨[], []⟩ (.ofInt 0) = .error .attributeError ∧ opsGateClass "swap" = some "swap" ∧ opsGateClass "cr" = gateClass "cr" :=
  ⟨rfl, rfl, rfl⟩

/-- C105. A call with the documented parameters gives the documented gate and the least register that contains the old one and the
subscript. -/
theorem C105_call (name cls : String) (hn : opsGateClass name = some cls) (xs : List ℝ) (T : Targets) (hT : Plain T) (g : Gate)
    (hg : gateSet name xs T = some g) (c : PyCall) (hc : c.kw.WF) (vals : List PyArg)
    (hb : Binds ((paramNames name).map (fun p => (p, none))) c vals) (hx : List.Forall₂ IsNumber vals xs)
    (h1 : ¬Given c "self") (h2 : ¬Given c "targets") (h3 : ¬Given c "params") (n : ℕ) :
    ∃ m o, opsCall n name c T = .ok (m, o) ∧ o.toGate = some g ∧ GrownTo n T m := by
  obtain ⟨o, ho, hog, -⟩ := C104_gate name xs T g hg c hc vals hb hx h1 h2 h3
  obtain ⟨v, hv⟩ := getMaximumIndex_plain hT
  have hc' : gateClass name = some cls := by
    have := C105_names_partial name
    rw [hn] at this
    split_ifs at this
    exact this.symm
  simp only [callGate, hc'] at ho
  exact ⟨newQubits v n, o, by simp only [opsCall, hn, hv, ho], hog, newQubits_grown hv n⟩

/-- `Ops(1).u2(1, lambd=2)[3]`. -/
example : opsGateClass "u2" = some "u2" ∧ Plain (.ofInt 3) ∧ (gateSet "u2" [1, 2] (.ofInt 3)).isSome ∧ GrownTo 1 (.ofInt 3) 4 :=
  ⟨rfl, by simp [Plain, Targets.ofInt], rfl, newQubits_grown (v := 3) rfl 1⟩

/-- C105. A subscript without a maximum index raises before the arguments are looked at; nothing is appended. -/
theorem C105_order (name cls : String) (hn : opsGateClass name = some cls) (n : ℕ) (c : PyCall) (T : Targets) :
    (∀ e, getMaximumIndex T = .error e → opsCall n name c T = .error e) ∧
    (∀ v e, getMaximumIndex T = .ok v → callGate name c T = .error e → opsCall n name c T = .error e) := by
  have hc' : gateClass name = some cls := by
    have := C105_names_partial name
    rw [hn] at this
    split_ifs at this
    exact this.symm
  refine ⟨fun e h => by simp only [opsCall, hn, h], fun v e h h' => ?_⟩
  simp only [callGate, hc'] at h'
  simp only [opsCall, hn, h, h']

/-- The gates that can be made by name with `Ops`. -/
def OpsNamed (g : Gate) : Prop := ∃ name xs cls, opsGateClass name = some cls ∧ gateSet name xs g.targets = some g

theorem opsNamed_iff (g : Gate) : OpsNamed g ↔ opsGateClass g.lowername = some g.lowername := by
  constructor
  · rintro ⟨name, xs, cls, h, hg⟩
    obtain ⟨cls', h', hl, -⟩ := gateSet_class hg
    have := C105_names_partial name
    rw [h, h'] at this
    split_ifs at this
    cases this
    rw [hl]
    clear hg hl h'
    unfold opsGateClass at h
    split at h <;> cases h <;> rfl
  · intro h
    have hccz : g.NotCcz := by
      rcases g with ⟨k, T⟩ | ⟨k, T⟩ | ⟨k, T⟩ | T | T
      · trivial
      · trivial
      · cases k <;> first | trivial | cases h
      · trivial
      · trivial
    refine ⟨g.lowername, g.params, _, h, ?_⟩
    rcases g with ⟨k, T⟩ | ⟨k, T⟩ | ⟨k, T⟩ | T | T
    · cases k <;> rfl
    · cases k <;> rfl
    · cases k <;> first | rfl | cases h
    · rfl
    · rfl

/-- C105. `dagger` of gates that can be made by name with `Ops` are again such gates. -/
theorem C105_dagger (o o' : OpsVal) (h : ∀ g ∈ o.ops, OpsNamed g) (hd : o.dagger = .ok o') : ∀ g ∈ o'.ops, OpsNamed g := by
  have one : ∀ g g' : Gate, OpsNamed g → g.dagger = .ok g' → OpsNamed g' := by
    intro g g' h h'
    rw [opsNamed_iff] at h ⊢
    rcases g with ⟨k, T⟩ | ⟨k, T⟩ | ⟨k, T⟩ | T | T <;> cases h'
    · cases k <;> first | rfl | exact h
    · cases k <;> first | rfl | exact h
    · cases k <;> first | rfl | exact h
  have many : ∀ (l r : List Gate), (∀ g ∈ l, OpsNamed g) → daggerOps false l = .ok r → ∀ g ∈ r, OpsNamed g := by
    intro l
    induction l with
    | nil => intro r _ hr; cases hr; simp
    | cons a l ih =>
      intro r hl hr
      simp only [daggerOps] at hr
      cases ha : a.dagger with
      | error e =>
        rw [ha] at hr
        simp only [Bool.false_eq_true, if_false] at hr
        split_ifs at hr
      | ok a' =>
        rw [ha] at hr
        cases hk : daggerOps false l with
        | error e => rw [hk] at hr; cases hr
        | ok r' =>
          rw [hk] at hr
          cases hr
          intro g hg
          rcases List.mem_cons.1 hg with rfl | hg
          · exact one a g (hl a (by simp)) ha
          · exact ih r' (fun g hg => hl g (by simp [hg])) hk g hg
  unfold OpsVal.dagger at hd
  cases hr : daggerOps false o.ops.reverse with
  | error e => rw [hr] at hd; cases hd
  | ok r =>
    rw [hr] at hd
    cases hd
    exact many _ r (fun g hg => h g (List.mem_reverse.1 hg)) hr

variable {fmt : ℝ → String} {read : String → Option ℝ} {S : Set ℝ}

/-- C105. The text of an `Ops` value with at least one gate is a Python expression: `Ops` in place of `Circuit` and then what C64 reads;
every name in it is one that `Ops` has, and the gates are the same. -/
theorem C105_text_partial (hf : PyNumbers fmt read S) (n : ℕ) (ops : List Gate) (hne : ops ≠ []) (ho : ∀ g ∈ ops, OpsNamed g)
    (hp : ∀ g ∈ ops, Plain g.targets ∧ g.targets ≠ .tup []) (hS : ∀ g ∈ ops, ∀ x ∈ writtenNumbers g, x ∈ S) :
    ∃ tail calls gs, reprOps fmt n ops = .ok ("Ops" ++ tail) ∧ readCircuit read ("Circuit" ++ tail).toList = some (n, calls) ∧
      (∀ c ∈ calls, (opsGateClass c.name).isSome) ∧
      calls.mapM (fun c => gateSet c.name c.args (subscript c.subs)) = some gs ∧ List.Forall₂ SameGate ops gs := by
  have hpr : ∀ g ∈ ops, Printable g := by
    intro g hg
    refine ⟨(hp g hg).1, (hp g hg).2, ?_⟩
    have := (opsNamed_iff g).1 (ho g hg)
    rcases g with ⟨k, T⟩ | ⟨k, T⟩ | ⟨k, T⟩ | T | T
    · trivial
    · trivial
    · cases k <;> first | trivial | cases this
    · trivial
    · trivial
  obtain ⟨text, calls, gs, h1, h2, h3, h4⟩ := C64_text_partial hf n ops hne hpr hS
  cases hm : ops.mapM (strGate fmt) with
  | error e => simp only [reprCircuit, hm] at h1; cases h1
  | ok parts =>
    simp only [reprCircuit, hm, Except.ok.injEq] at h1
    refine ⟨"(" ++ toString n ++ ")." ++ pyJoin "." parts, calls, gs, ?_, ?_, ?_, h3, h4⟩
    · simp only [reprOps, hm]
      congr 1
    · rw [← h2, ← h1]
      congr 1
    · clear h1 h2 hm hne hS
      intro c hc
      induction h4 generalizing calls with
      | nil =>
        cases calls with
        | nil => cases hc
        | cons d ds =>
          rw [List.mapM_cons] at h3
          cases hd : gateSet d.name d.args (subscript d.subs) with
          | none => rw [hd] at h3; cases h3
          | some g =>
            rw [hd] at h3
            cases hds : ds.mapM (fun c => gateSet c.name c.args (subscript c.subs)) with
            | none => simp [hds] at h3
            | some l => simp [hds] at h3
      | @cons g g' ops gs hgg _ ih =>
        cases calls with
        | nil => cases hc
        | cons d ds =>
          rw [List.mapM_cons] at h3
          cases hd : gateSet d.name d.args (subscript d.subs) with
          | none => rw [hd] at h3; cases h3
          | some g0 =>
            cases hds : ds.mapM (fun c => gateSet c.name c.args (subscript c.subs)) with
            | none => simp [hd, hds] at h3
            | some l =>
              simp [hd, hds] at h3
              obtain ⟨rfl, rfl⟩ := h3
              rcases List.mem_cons.1 hc with rfl | hc
              · obtain ⟨cls, k1, k2, -⟩ := gateSet_class hd
                have hl : g.lowername = g0.lowername := by cases hgg <;> rfl
                have k3 := (opsNamed_iff g).1 (ho g (by simp))
                rw [hl, k2] at k3
                rw [C105_names_partial] at k3 ⊢
                split_ifs with hbad
                · simp only [List.mem_cons, List.not_mem_nil, or_false] at hbad
                  rcases hbad with hb | hb | hb | hb | hb <;> rw [hb] at k1 <;> cases k1 <;> simp at k3
                · rw [k1]; rfl
              · exact ih (fun g hg => ho g (by simp [hg])) (fun g hg => hp g (by simp [hg])) (fun g hg => hpr g (by simp [hg])) ds hds hc

/-- C105: `Ops(3).h[:].cx[0, 1]`. -/
example : reprOps (fun _ => "0.5") 3 [.g1 .h (.one (.slice none none none)), .g2 .cx (.tup [.atom (.int 0), .atom (.int 1)])] =
      .ok "Ops(3).h[:].cx[0, 1]" ∧ OpsNamed (.g1 .h (.one (.slice none none none))) := by
  refine ⟨?_, (opsNamed_iff _).2 rfl⟩
  simp [reprOps, strGate, strTargets, sliceToStr, sliceToStrItem, strArgs, pyJoin, strBound, Gate.targets,
    Gate.params, G1.params, G2.params, Gate.lowername, G1.lowername, G2.lowername, bind, Except.bind, pure, Except.pure]
  decide +kernel

/-- C105, violated: an `Ops` value without gates is written with a dot at the end, which is no expression. -/
theorem C105_empty_refuted (n : ℕ) :
    ∃ tail, reprOps fmt n [] = .ok ("Ops" ++ tail) ∧ readCircuit read ("Circuit" ++ tail).toList = none := by
  obtain ⟨t, h1, h2⟩ := C64_empty_refuted (fmt := fmt) (read := read) n
  refine ⟨"(" ++ toString n ++ ").", ?_, ?_⟩
  · simp only [reprOps, List.mapM_nil, pure, Except.pure, pyJoin]
    congr 1
    apply String.toList_injective
    simp [String.intercalate]
  · rw [← h2]
    congr 1
    simp only [reprCircuit, List.mapM_nil, pure, Except.pure, pyJoin, Except.ok.injEq] at h1
    rw [← h1]
    simp

/-- C105, exact: the text is an expression if and only if there is at least one gate and no subscript is the empty tuple. -/
theorem C105_text_exact (hf : PyNumbers fmt read S) (n : ℕ) (ops : List Gate) (hT : ∀ g ∈ ops, Plain g.targets)
    (hS : ∀ g ∈ ops, ∀ x ∈ writtenNumbers g, x ∈ S) :
    ∃ tail, reprOps fmt n ops = .ok ("Ops" ++ tail) ∧
      ((readCircuit read ("Circuit" ++ tail).toList).isSome ↔ ops ≠ [] ∧ ∀ g ∈ ops, g.targets ≠ .tup []) := by
  obtain ⟨text, h1, h2⟩ := C64_exact hf n ops hT hS
  cases hm : ops.mapM (strGate fmt) with
  | error e => simp only [reprCircuit, hm] at h1; cases h1
  | ok parts =>
    simp only [reprCircuit, hm, Except.ok.injEq] at h1
    refine ⟨"(" ++ toString n ++ ")." ++ pyJoin "." parts, ?_, ?_⟩
    · simp only [reprOps, hm]
      congr 1
    · rw [← h2, ← h1]
      have : "Circuit" ++ ("(" ++ toString n ++ ")." ++ pyJoin "." parts) = "Circuit(" ++ toString n ++ ")." ++ pyJoin "." parts := by
        apply String.toList_injective
        simp
      rw [this]

end Blueqat
