import Verif.Spec.Calls
import Verif.Spec.Names
import Verif.Props.Names

/-!
# Property C104: arguments of gates and runs
-/

set_option linter.unusedSimpArgs false
set_option linter.unusedVariables false

namespace Blueqat

open Spec

noncomputable section

theorem kw_get_iff {kw : PyDict String PyArg} (h : kw.WF) (p : String) (v : PyArg) : kw.get p = some v ↔ (p, v) ∈ kw := by
  induction kw with
  | nil => simp [PyDict.get]
  | cons a rest ih =>
    obtain ⟨k, w⟩ := a
    have hr : PyDict.WF rest := (List.nodup_cons.1 h).2
    have hk : k ∉ rest.map Prod.fst := (List.nodup_cons.1 h).1
    simp only [PyDict.get]
    by_cases e : k = p
    · subst e
      rw [if_pos rfl]
      constructor
      · intro hh; cases hh; exact List.mem_cons_self
      · intro hh
        rcases List.mem_cons.1 hh with hh | hh
        · cases hh; rfl
        · exact absurd (List.mem_map_of_mem (f := Prod.fst) hh) hk
    · rw [if_neg e, ih hr, List.mem_cons]
      constructor
      · exact .inr
      · rintro (hh | hh)
        · cases hh; exact absurd rfl e
        · exact hh

theorem kw_get_none {kw : PyDict String PyArg} (h : kw.WF) (p : String) : kw.get p = none ↔ ∀ v, (p, v) ∉ kw := by
  constructor
  · intro hn v hv
    rw [(kw_get_iff h p v).2 hv] at hn
    cases hn
  · intro hn
    cases e : kw.get p with
    | none => rfl
    | some v => exact absurd ((kw_get_iff h p v).1 e) (hn v)

theorem kw_has {kw : PyDict String PyArg} (h : kw.WF) (p : String) : kw.has p = true ↔ ∃ v, (p, v) ∈ kw := by
  rw [PyDict.has, Option.isSome_iff_exists]
  exact exists_congr fun v => kw_get_iff h p v

/-- C104. Arguments are bound to parameters by Python's rules; otherwise the call is a TypeError. -/
theorem C104_binding (c : PyCall) (hc : c.kw.WF) (params : List (String × Option PyArg)) :
    (∀ vals, bindParams c.kw params c.args = .ok vals ↔ Binds params c vals) ∧
    ∀ e, bindParams c.kw params c.args = .error e → e = .typeError := by
  obtain ⟨args, kw⟩ := c
  simp only at hc ⊢
  induction params generalizing args with
  | nil =>
    cases args with
    | nil =>
      refine ⟨fun vals => ⟨fun h => ?_, fun h => ?_⟩, fun e h => by cases h⟩
      · cases h
        exact ⟨by simp, by simp, by simp, by simp, by simp⟩
      · have := h.total
        rw [List.length_nil, List.length_eq_zero_iff] at this
        rw [this]; rfl
    | cons a as =>
      refine ⟨fun vals => ⟨fun h => (by cases h), fun h => ?_⟩, fun e h => by cases h; rfl⟩
      have := h.enough
      simp at this
  | cons p ps ih =>
    obtain ⟨p, d⟩ := p
    cases args with
    | cons a as =>
      obtain ⟨h1, h2⟩ := ih as
      have key : ∀ vals, Binds ((p, d) :: ps) ⟨a :: as, kw⟩ vals ↔
          (∀ v, (p, v) ∉ kw) ∧ ∃ vs, vals = a :: vs ∧ Binds ps ⟨as, kw⟩ vs := by
        intro vals
        constructor
        · intro h
          cases vals with
          | nil => have := h.total; simp at this
          | cons v vs =>
            have h0 := h.positional 0 p d a rfl rfl
            simp only [List.getElem?_cons_zero, Option.some.injEq] at h0
            refine ⟨h0.2, vs, by rw [h0.1], ?_, ?_, ?_, ?_, ?_⟩
            · simpa using h.enough
            · simpa using h.total
            · exact fun i q e b h1 h2 => by simpa using h.positional (i + 1) q e b (by simpa using h1) (by simpa using h2)
            · exact fun i q e b h1 h2 h3 => by simpa using h.keyword (i + 1) q e b (by simpa using h1) (by simpa using h2) h3
            · exact fun i q e h1 h2 h3 => by simpa using h.default (i + 1) q e (by simpa using h1) (by simpa using h2) h3
        · rintro ⟨h0, vs, rfl, h⟩
          refine ⟨by simpa using h.enough, by simpa using h.total, ?_, ?_, ?_⟩
          · intro i q e b h1 h2
            cases i with
            | zero => simp at h1 h2; obtain ⟨rfl, rfl⟩ := h1; subst h2; exact ⟨rfl, h0⟩
            | succ i => simpa using h.positional i q e b (by simpa using h1) (by simpa using h2)
          · intro i q e b h1 h2 h3
            cases i with
            | zero => simp at h2
            | succ i => simpa using h.keyword i q e b (by simpa using h1) (by simpa using h2) h3
          · intro i q e h1 h2 h3
            cases i with
            | zero => simp at h2
            | succ i => simpa using h.default i q e (by simpa using h1) (by simpa using h2) h3
      simp only [bindParams]
      by_cases hp : kw.has p = true
      · rw [if_pos hp]
        refine ⟨fun vals => ⟨fun h => (by cases h), fun h => ?_⟩, fun e h => by cases h; rfl⟩
        obtain ⟨v, hv⟩ := (kw_has hc p).1 hp
        exact absurd hv (((key vals).1 h).1 v)
      · rw [if_neg hp]
        have hn : ∀ v, (p, v) ∉ kw := fun v hv => hp ((kw_has hc p).2 ⟨v, hv⟩)
        cases e : bindParams kw ps as with
        | error x =>
          refine ⟨fun vals => ⟨fun h => (by cases h), fun h => ?_⟩, fun y h => by cases h; exact h2 _ e⟩
          obtain ⟨-, vs, -, hb⟩ := (key vals).1 h
          rw [(h1 vs).2 hb] at e; cases e
        | ok vs =>
          refine ⟨fun vals => ⟨fun h => ?_, fun h => ?_⟩, fun y h => by cases h⟩
          · cases h
            exact (key _).2 ⟨hn, vs, rfl, (h1 vs).1 e⟩
          · obtain ⟨-, ws, rfl, hb⟩ := (key vals).1 h
            rw [(h1 ws).2 hb] at e
            cases e; rfl
    | nil =>
      obtain ⟨h1, h2⟩ := ih []
      have key : ∀ vals, Binds ((p, d) :: ps) ⟨[], kw⟩ vals ↔
          ∃ v vs, vals = v :: vs ∧ ((p, v) ∈ kw ∨ (∀ w, (p, w) ∉ kw) ∧ d = some v) ∧ Binds ps ⟨[], kw⟩ vs := by
        intro vals
        constructor
        · intro h
          cases vals with
          | nil => have := h.total; simp at this
          | cons v vs =>
            refine ⟨v, vs, rfl, ?_, ?_, ?_, ?_, ?_, ?_⟩
            · by_cases hw : ∀ w, (p, w) ∉ kw
              · obtain ⟨x, hx, hy⟩ := h.default 0 p d rfl (by simp) hw
                simp at hy; subst hy
                exact .inr ⟨hw, hx⟩
              · push Not at hw
                obtain ⟨w, hw⟩ := hw
                have := h.keyword 0 p d w rfl (by simp) hw
                simp at this; subst this
                exact .inl hw
            · simp
            · simpa using h.total
            · intro i q e b h1 h2; simp at h2
            · exact fun i q e b h1 h2 h3 => by simpa using h.keyword (i + 1) q e b (by simpa using h1) (by simp) h3
            · exact fun i q e h1 h2 h3 => by simpa using h.default (i + 1) q e (by simpa using h1) (by simp) h3
        · rintro ⟨v, vs, rfl, hv, h⟩
          refine ⟨by simp, by simpa using h.total, ?_, ?_, ?_⟩
          · intro i q e b h1 h2; simp at h2
          · intro i q e b h1 h2 h3
            cases i with
            | zero =>
              simp at h1; obtain ⟨rfl, rfl⟩ := h1
              rcases hv with hv | ⟨hv, -⟩
              · have := (kw_get_iff hc p v).2 hv
                rw [(kw_get_iff hc p b).2 h3] at this
                simpa using this.symm
              · exact absurd h3 (hv b)
            | succ i => simpa using h.keyword i q e b (by simpa using h1) (by simp) h3
          · intro i q e h1 h2 h3
            cases i with
            | zero =>
              simp at h1; obtain ⟨rfl, rfl⟩ := h1
              rcases hv with hv | ⟨-, hv⟩
              · exact absurd hv (h3 v)
              · exact ⟨v, hv, rfl⟩
            | succ i => simpa using h.default i q e (by simpa using h1) (by simp) h3
      have step : ∀ v, ((p, v) ∈ kw ∨ (∀ w, (p, w) ∉ kw) ∧ d = some v) →
          ((∀ vals, (match bindParams kw ps [] with | .error e => Except.error e | .ok vs => .ok (v :: vs)) = .ok vals ↔
            Binds ((p, d) :: ps) ⟨[], kw⟩ vals) ∧
          ∀ e, (match bindParams kw ps [] with | .error e => Except.error e | .ok vs => .ok (v :: vs)) = .error e → e = .typeError) := by
        intro v hv
        have uniq : ∀ w, ((p, w) ∈ kw ∨ (∀ w, (p, w) ∉ kw) ∧ d = some w) → w = v := by
          intro w hw
          rcases hv with hv | ⟨hv, hd⟩ <;> rcases hw with hw | ⟨hw, hd'⟩
          · have := (kw_get_iff hc p v).2 hv
            rw [(kw_get_iff hc p w).2 hw] at this
            simpa using this
          · exact absurd hv (hw v)
          · exact absurd hw (hv w)
          · rw [hd] at hd'; simpa using hd'.symm
        cases e : bindParams kw ps [] with
        | error x =>
          refine ⟨fun vals => ⟨fun h => (by cases h), fun h => ?_⟩, fun y h => by cases h; exact h2 _ e⟩
          obtain ⟨-, vs, -, -, hb⟩ := (key vals).1 h
          rw [(h1 vs).2 hb] at e; cases e
        | ok vs =>
          refine ⟨fun vals => ⟨fun h => ?_, fun h => ?_⟩, fun y h => by cases h⟩
          · cases h
            exact (key _).2 ⟨v, vs, rfl, hv, (h1 vs).1 e⟩
          · obtain ⟨w, ws, rfl, hw, hb⟩ := (key vals).1 h
            rw [(h1 ws).2 hb] at e
            cases e
            rw [uniq w hw]
      simp only [bindParams]
      cases e : kw.get p with
      | some v => exact step v (.inl ((kw_get_iff hc p v).1 e))
      | none =>
        have hn := (kw_get_none hc p).1 e
        cases d with
        | some v => exact step v (.inr ⟨hn, rfl⟩)
        | none =>
          refine ⟨fun vals => ⟨fun h => (by cases h), fun h => ?_⟩, fun y h => by cases h; rfl⟩
          obtain ⟨v, -, -, hv, -⟩ := (key vals).1 h
          rcases hv with hv | ⟨-, hv⟩
          · exact absurd hv (hn v)
          · cases hv

/-- `run(100, returns="shots")`. -/
example : Binds npRunParams ⟨[.int 100], [("returns", .str "shots")]⟩ [.int 100, .str "shots", .bool false] := by
  refine ((C104_binding ⟨[.int 100], [("returns", .str "shots")]⟩ (by simp [PyDict.WF]) npRunParams).1 _).1 ?_
  simp [bindParams, npRunParams, PyDict.has, PyDict.get]

/-! ## Gates -/

theorem gateClass_params {name cls : String} (h : gateClass name = some cls) :
    initParams cls = if paramNames name = [] then none else some (paramNames name) := by
  unfold gateClass at h
  split at h <;> cases h <;> rfl

theorem gateClass_set {name cls : String} (h : gateClass name = some cls) (xs : List ℝ) (T : Targets) :
    gateSet cls xs T = gateSet name xs T := by
  unfold gateClass at h
  split at h <;> cases h <;> try rfl
  all_goals rcases xs with _ | ⟨a, _ | ⟨b, _ | ⟨c, _ | ⟨d, xs⟩⟩⟩⟩ <;> rfl

theorem gateSet_class {name : String} {xs : List ℝ} {T : Targets} {g : Gate} (h : gateSet name xs T = some g) :
    ∃ cls, gateClass name = some cls ∧ g.lowername = cls ∧ g.params = xs ∧ xs.length = (paramNames name).length ∧ g.targets = T := by
  unfold gateSet at h
  split at h
  · rename_i k hk
    cases h
    unfold gateSet1 at hk
    split at hk <;> cases hk <;> exact ⟨_, rfl, rfl, rfl, rfl, rfl⟩
  · split at h
    · rename_i k hk
      cases h
      unfold gateSet2 at hk
      split at hk <;> cases hk <;> exact ⟨_, rfl, rfl, rfl, rfl, rfl⟩
    · unfold gateSetOther at h
      split at h <;> cases h <;> exact ⟨_, rfl, rfl, rfl, rfl, rfl⟩

theorem numbers_toReal {vals : List PyArg} {xs : List ℝ} (h : List.Forall₂ IsNumber vals xs) : vals.mapM PyArg.toReal = some xs := by
  induction h with
  | nil => rfl
  | cons h _ ih =>
    rw [List.mapM_cons, ih]
    rcases h with rfl | ⟨i, rfl, rfl⟩ <;> rfl

theorem formatted_eq {fmt : PyArg → String} {fmt' : ℝ → String} {vals : List PyArg} {xs : List ℝ}
    (h : List.Forall₂ (fun v x => fmt v = fmt' x) vals xs) : vals.map fmt = xs.map fmt' := by
  induction h with
  | nil => rfl
  | cons h _ ih => rw [List.map_cons, List.map_cons, h, ih]

theorem not_given {c : PyCall} (hc : c.kw.WF) {p : String} (h : ¬Given c p) : ¬c.kw.has p = true := by
  rw [kw_has hc]; exact h

theorem rest_wf {c : PyCall} (hc : c.kw.WF) (names : List String) : PyDict.WF (c.rest names) :=
  hc.sublist (List.filter_sublist.map _)

/-- C104. A gate called with its documented parameters, by position or by name, is the documented gate (C82), whatever other
keywords are given. Its text is that of the gate. -/
theorem C104_gate (name : String) (xs : List ℝ) (T : Targets) (g : Gate) (hg : gateSet name xs T = some g) (c : PyCall) (hc : c.kw.WF)
    (vals : List PyArg) (hb : Binds ((paramNames name).map (fun p => (p, none))) c vals) (hx : List.Forall₂ IsNumber vals xs)
    (h1 : ¬Given c "self") (h2 : ¬Given c "targets") (h3 : ¬Given c "params") :
    ∃ o, callGate name c T = .ok o ∧ o.toGate = some g ∧ o.targets = T ∧
      ∀ (fmt : PyArg → String) (fmt' : ℝ → String), List.Forall₂ (fun v x => fmt v = fmt' x) vals xs → o.str fmt = strGate fmt' g := by
  obtain ⟨cls, hcls, hl, hp, hlen, hT⟩ := gateSet_class hg
  have hi := gateClass_params hcls
  have hs := gateClass_set hcls
  have hbind := ((C104_binding c hc _).1 vals).2 hb
  have hlen' := hb.total
  rw [List.length_map] at hlen'
  have text : ∀ (o : GateObj), o.cls = cls → o.params = .tup vals → o.targets = T →
      ∀ (fmt : PyArg → String) (fmt' : ℝ → String), List.Forall₂ (fun v x => fmt v = fmt' x) vals xs → o.str fmt = strGate fmt' g := by
    rintro ⟨c', p', k', t'⟩ rfl rfl rfl fmt fmt' hf
    have hm := formatted_eq hf
    have he : vals = [] ↔ xs = [] := by
      rw [← List.length_eq_zero_iff, ← List.length_eq_zero_iff, hx.length_eq]
    simp only [GateObj.str, GateObj.strArgs, PyArg.truthy, strGate, hT, hp, strArgs, hl]
    by_cases hv : vals = []
    · rw [if_pos (he.1 hv), hv]
      simp
      cases strTargets t' <;> rfl
    · rw [if_neg (fun h => hv (he.2 h))]
      have : (!vals.isEmpty) = true := by simpa using hv
      simp only [this, Bool.true_eq_false, if_false, hm]
      cases strTargets t' <;> simp [String.append_assoc]
  simp only [callGate, hcls, makeGate]
  rw [if_neg (by rintro (h | h); exacts [not_given hc h1 h, not_given hc h2 h])]
  by_cases h0 : paramNames name = []
  · rw [if_pos h0] at hi
    rw [h0] at hlen hlen'
    have hv : vals = [] := List.length_eq_zero_iff.1 hlen'
    have hxs : xs = [] := List.length_eq_zero_iff.1 hlen
    have ha : c.args = [] := by
      have := hb.enough
      rw [h0] at this
      simpa using this
    have hget : c.kw.get "params" = none := (kw_get_none hc _).2 (fun v hv => h3 ⟨v, hv⟩)
    rw [hi]
    simp only [ha, bindParams, hget]
    refine ⟨_, rfl, ?_, rfl, text _ rfl (by rw [hv]; rfl) rfl⟩
    simp only [GateObj.toGate, hi]
    rw [hs, ← hxs]; exact hg
  · rw [if_neg h0] at hi
    rw [hi]
    simp only [hbind]
    rw [if_neg]
    · refine ⟨_, rfl, ?_, rfl, text _ rfl rfl rfl⟩
      simp only [GateObj.toGate, hi, numbers_toReal hx]
      rw [hs]; exact hg
    · rw [kw_has (rest_wf hc _)]
      rintro ⟨v, hv⟩
      exact h3 ⟨v, (List.mem_filter.1 hv).1⟩

/-- `rx(theta=0.5)[0]`, `u2(1, lambd=2)[0]`. -/
example : Binds ((paramNames "rx").map (fun p => (p, none))) ⟨[], [("theta", .float 0.5)]⟩ [.float 0.5] ∧
    Binds ((paramNames "u2").map (fun p => (p, none))) ⟨[.int 1], [("lambd", .int 2)]⟩ [.int 1, .int 2] ∧
    List.Forall₂ IsNumber [.int 1, .int 2] [1, 2] ∧ (gateSet "u2" [1, 2] (.ofInt 0)).isSome := by
  refine ⟨((C104_binding ⟨[], [("theta", .float 0.5)]⟩ (by simp [PyDict.WF]) _).1 _).1 ?_,
    ((C104_binding ⟨[.int 1], [("lambd", .int 2)]⟩ (by simp [PyDict.WF]) _).1 _).1 ?_, ?_, rfl⟩
  · simp [bindParams, paramNames, PyDict.get]
  · simp [bindParams, paramNames, PyDict.get, PyDict.has]
  · exact .cons (.inr ⟨1, rfl, by norm_num⟩) (.cons (.inr ⟨2, rfl, by norm_num⟩) .nil)

theorem gateClass_gate {name cls : String} (h : gateClass name = some cls) (T : Targets) : ∃ xs, (gateSet name xs T).isSome := by
  unfold gateClass at h
  split at h <;>
    first
      | exact ⟨[], rfl⟩
      | exact ⟨[0], rfl⟩
      | exact ⟨[0, 0], rfl⟩
      | exact ⟨[0, 0, 0], rfl⟩
      | cases h

/-- C104. A name of no gate (C82) is an AttributeError, whatever the arguments. -/
theorem C104_no_gate (name : String) (T : Targets) (h : ∀ xs, gateSet name xs T = none) (c : PyCall) :
    callGate name c T = .error .attributeError := by
  cases hn : gateClass name with
  | none => simp only [callGate, hn]
  | some cls =>
    obtain ⟨xs, hx⟩ := gateClass_gate hn T
    rw [h xs] at hx
    simp at hx

example : ∀ xs, gateSet "foo" xs (.ofInt 0) = none := by
  intro xs
  rcases xs with _ | ⟨a, _ | ⟨b, _ | ⟨d, _ | ⟨e, xs⟩⟩⟩⟩ <;> rfl

/-- C104. A gate with parameters refuses a call with missing, repeated or too many parameters with TypeError. -/
theorem C104_gate_refused (name : String) (cls : String) (hn : gateClass name = some cls) (hp : paramNames name ≠ []) (T : Targets)
    (c : PyCall) (hc : c.kw.WF)
    (h : (¬∃ vals, Binds ((paramNames name).map (fun p => (p, none))) c vals) ∨ Given c "self" ∨ Given c "targets" ∨ Given c "params") :
    callGate name c T = .error .typeError := by
  have hi := gateClass_params hn
  rw [if_neg hp] at hi
  simp only [callGate, hn, makeGate, hi]
  by_cases hs : c.kw.has "self" = true ∨ c.kw.has "targets" = true
  · rw [if_pos hs]
  · rw [if_neg hs]
    push Not at hs
    obtain ⟨b1, b2⟩ := C104_binding c hc ((paramNames name).map (fun p => (p, none)))
    cases e : bindParams c.kw ((paramNames name).map (fun p => (p, none))) c.args with
    | error x => simp only; rw [b2 x e]
    | ok vs =>
      simp only
      rw [if_pos]
      rw [kw_has (rest_wf hc _)]
      rcases h with h | h | h | ⟨v, hv⟩
      · exact absurd ⟨vs, (b1 vs).1 e⟩ h
      · exact absurd ((kw_has hc _).2 h) (by simpa using hs.1)
      · exact absurd ((kw_has hc _).2 h) (by simpa using hs.2)
      · refine ⟨v, List.mem_filter.2 ⟨hv, ?_⟩⟩
        unfold gateClass at hn
        split at hn <;> cases hn <;> first | rfl | exact absurd rfl hp

/-- `rx()[0]`, `rx(1, 2)[0]` and `rx(1, theta=2)[0]`. -/
example : callGate "rx" ⟨[], []⟩ (.ofInt 0) = .error .typeError ∧ callGate "rx" ⟨[.int 1, .int 2], []⟩ (.ofInt 0) = .error .typeError ∧
    callGate "rx" ⟨[.int 1], [("theta", .int 2)]⟩ (.ofInt 0) = .error .typeError := by
  simp [callGate, gateClass, makeGate, initParams, bindParams, PyDict.get, PyDict.has]

/-- C104, exactly: a gate without parameters accepts no argument or one, which is ignored, and refuses the other calls.
Missing: a call with an argument should be refused, see `C104_extra_refuted`. -/
theorem C104_noparams_partial (name : String) (T : Targets) (g : Gate) (hg : gateSet name [] T = some g) (c : PyCall) (hc : c.kw.WF) :
    (¬Given c "self" ∧ ¬Given c "targets" ∧ (c.args.length = 0 ∨ c.args.length = 1 ∧ ¬Given c "params") →
      ∃ o, callGate name c T = .ok o ∧ o.toGate = some g) ∧
    (¬(¬Given c "self" ∧ ¬Given c "targets" ∧ (c.args.length = 0 ∨ c.args.length = 1 ∧ ¬Given c "params")) →
      callGate name c T = .error .typeError) := by
  obtain ⟨cls, hcls, hl, hp, hlen, hT⟩ := gateSet_class hg
  have hi := gateClass_params hcls
  have h0 : paramNames name = [] := by
    rw [← List.length_eq_zero_iff, ← hlen]; rfl
  rw [if_pos h0] at hi
  have hs := gateClass_set hcls
  obtain ⟨args, kw⟩ := c
  simp only at hc
  simp only [callGate, hcls, makeGate, hi]
  constructor
  · rintro ⟨h1, h2, h3⟩
    rw [if_neg (by rintro (h | h); exacts [not_given hc h1 h, not_given hc h2 h])]
    have : ∃ v, bindParams kw [("params", some (.tup []))] args = .ok [v] := by
      rcases h3 with h3 | ⟨h3, h4⟩
      · rw [List.length_eq_zero_iff.1 h3]
        simp only [bindParams]
        cases kw.get "params" with
        | none => exact ⟨_, rfl⟩
        | some v => exact ⟨_, rfl⟩
      · obtain ⟨a, rfl⟩ := List.length_eq_one_iff.1 h3
        simp only [bindParams]
        rw [if_neg (not_given (c := ⟨[a], kw⟩) hc h4)]
        exact ⟨_, rfl⟩
    obtain ⟨v, hv⟩ := this
    rw [hv]
    refine ⟨_, rfl, ?_⟩
    simp only [GateObj.toGate, hi]
    rw [hs]; exact hg
  · intro h
    split_ifs with hst
    · rfl
    · push Not at hst
      have h1 : ¬Given ⟨args, kw⟩ "self" := fun hh => hst.1 ((kw_has hc _).2 hh)
      have h2 : ¬Given ⟨args, kw⟩ "targets" := fun hh => hst.2 ((kw_has hc _).2 hh)
      have h3 : ¬(args.length = 0 ∨ args.length = 1 ∧ ¬Given ⟨args, kw⟩ "params") := fun hh => h ⟨h1, h2, hh⟩
      push Not at h3
      have : bindParams kw [("params", some (.tup []))] args = .error .typeError := by
        match args, h3 with
        | [], h3 => simp at h3
        | [a], h3 =>
          simp only [bindParams]
          rw [if_pos ((kw_has hc _).2 (h3.2 rfl))]
        | a :: b :: rest, h3 =>
          simp only [bindParams]
          split_ifs <;> rfl
      rw [this]

example : (gateSet "x" [] (.ofInt 0)).isSome ∧ ¬Given ⟨[], []⟩ "self" ∧ ¬Given ⟨[.float 0.5, .float 1], []⟩ "params" ∧
    callGate "x" ⟨[.float 0.5, .float 1], []⟩ (.ofInt 0) = .error .typeError := by
  refine ⟨rfl, by simp [Given], by simp [Given], ?_⟩
  simp [callGate, gateClass, makeGate, initParams, bindParams, PyDict.get, PyDict.has]

/-- C104, violated: `x(0.5)[0]` is accepted and acts as `x[0]`, but the text of the circuit cannot be made (TypeError). Also
`h(theta=0.5)[0]` is accepted and acts as `h[0]`. -/
theorem C104_extra_refuted :
    (∃ o, callGate "x" ⟨[.float 0.5], []⟩ (.ofInt 0) = .ok o ∧ o.toGate = some (.g1 .x (.ofInt 0)) ∧ ∀ fmt, o.str fmt = .error .typeError) ∧
    ∃ o, callGate "h" ⟨[], [("theta", .float 0.5)]⟩ (.ofInt 0) = .ok o ∧ o.toGate = some (.g1 .h (.ofInt 0)) := by
  refine ⟨⟨⟨"x", .float 0.5, [], .ofInt 0⟩, ?_, ?_, ?_⟩, ⟨⟨"h", .tup [], [("theta", .float 0.5)], .ofInt 0⟩, ?_, ?_⟩⟩
  · simp [callGate, gateClass, makeGate, initParams, bindParams, PyDict.get, PyDict.has, PyCall.rest]
  · rfl
  · intro fmt
    have : PyArg.truthy (.float 0.5) = true := by simp only [PyArg.truthy, decide_eq_true_eq]; norm_num
    simp only [GateObj.str, GateObj.strArgs, this, Bool.true_eq_false, if_false]
  · simp [callGate, gateClass, makeGate, initParams, bindParams, PyDict.get, PyDict.has, PyCall.rest]
  · rfl

/-! ## Runs -/

theorem clashes_iff {c : PyCall} (hc : c.kw.WF) : c.clashes = true ↔ Clash c := by
  simp only [PyCall.clashes, Bool.or_eq_true, kw_has hc, Clash, Given, or_assoc]

/-- C104. The truth of an argument is Python's. -/
theorem C104_truth (v : PyArg) (b : Bool) : IsFlag v b ↔ v.truthy = b := by
  have key : v.truthy = false ↔ Falsy v := by
    constructor
    · intro h
      rcases v with _ | i | b | x | s | l
      · exact .none
      · simp only [PyArg.truthy, decide_eq_false_iff_not, not_not] at h; subst h; exact .zero
      · simp only [PyArg.truthy] at h; subst h; exact .no
      · simp only [PyArg.truthy, decide_eq_false_iff_not, not_not] at h; subst h; exact .zeroFloat
      · simp only [PyArg.truthy, decide_eq_false_iff_not, not_not] at h; subst h; exact .emptyStr
      · cases l with
        | nil => exact .emptyTuple
        | cons a l => simp [PyArg.truthy] at h
    · rintro (_ | _) <;> simp [PyArg.truthy]
  rw [IsFlag, ← key]
  cases v.truthy <;> cases b <;> simp

example : IsFlag .none false ∧ IsFlag (.int 2) true := by
  simp [C104_truth, PyArg.truthy]

theorem toShots_iff (v : PyArg) (s : Option ℤ) : IsShots v s ↔ v.toShots = some s := by
  constructor
  · rintro (_ | _) <;> simp [PyArg.toShots]
  · intro h
    rcases v with _ | i | (_ | _) | x | t | l <;> simp [PyArg.toShots] at h <;> subst h <;> constructor

theorem toReturns_iff (v : PyArg) (s : Option String) : IsReturns v s ↔ v.toReturns = some s := by
  constructor
  · rintro (_ | _) <;> simp [PyArg.toReturns]
  · intro h
    rcases v with _ | i | b | x | t | l <;> simp [PyArg.toReturns] at h <;> subst h <;> constructor

/-- C104. `run` on the numpy backend takes `shots`, `returns` and `ignore_global` by position or by name; a call that cannot be bound
is a TypeError. -/
theorem C104_numpy_run (n : ℕ) (gates : List Gate) (be : NpBackend) (rnd : ℕ → ℝ) (c : PyCall) (hc : c.kw.WF) :
    (∀ s r g s' r' g', ¬Clash c → Binds runParams c [s, r, g] → IsShots s s' → IsReturns r r' → IsFlag g g' →
      npRunCall n gates be c rnd = npRunArgs n gates be ⟨s', r', g', rnd⟩) ∧
    (Clash c ∨ (¬∃ vals, Binds runParams c vals) → npRunCall n gates be c rnd = (be, .error .typeError)) := by
  obtain ⟨b1, b2⟩ := C104_binding c hc npRunParams
  constructor
  · intro s r g s' r' g' hcl hb hs hr hg
    rw [toShots_iff] at hs
    rw [toReturns_iff] at hr
    rw [C104_truth] at hg
    subst hg
    simp only [npRunCall, if_neg (fun h => hcl ((clashes_iff hc).1 h)), (b1 _).2 hb, hr, hs]
  · intro h
    by_cases hcl : Clash c
    · simp only [npRunCall, if_pos ((clashes_iff hc).2 hcl)]
    replace h := h.resolve_left hcl
    simp only [npRunCall, if_neg (fun h => hcl ((clashes_iff hc).1 h))]
    cases e : bindParams c.kw npRunParams c.args with
    | error x => simp only; rw [b2 x e]
    | ok vs => exact absurd ⟨vs, (b1 vs).1 e⟩ h

/-- C104. The same call with at most two positional arguments means the same on the numba backend. -/
theorem C104_numba_run (n : ℕ) (gates : List Gate) (be : NbBackend) (rnd : ℕ → ℝ) (i : Option ℕ) (c : PyCall) (hc : c.kw.WF)
    (s r g : PyArg) (s' : Option ℤ) (r' : Option String) (g' : Bool) (hb : Binds runParams c [s, r, g]) (h2 : c.args.length ≤ 2)
    (hs : IsShots s s') (hr : IsReturns r r') (hg : IsFlag g g') (hd : ¬Given c "dtype") (hcl : ¬Clash c) :
    ∃ e : Bool, (∀ v, ("enable_cache", v) ∈ c.kw → IsFlag v e) ∧ (¬Given c "enable_cache" → e = true) ∧
      nbRunCall n gates be c rnd i = nbRunArgs n gates be ⟨s', r', e, g', rnd, i⟩ := by
  rw [toShots_iff] at hs
  rw [toReturns_iff] at hr
  rw [C104_truth] at hg
  subst hg
  have hB := ((C104_binding c hc npRunParams).1 _).2 hb
  have hcf : ¬c.clashes = true := fun h => hcl ((clashes_iff hc).1 h)
  obtain ⟨args, kw⟩ := c
  simp only at hc hB h2
  have hdt : kw.get "dtype" = none := (kw_get_none hc _).2 (fun v hv => hd ⟨v, hv⟩)
  refine ⟨((kw.get "enable_cache").getD (.bool true)).truthy, ?_, ?_, ?_⟩
  · intro v hv
    rw [(kw_get_iff hc _ v).2 hv]; exact (C104_truth _ _).2 rfl
  · intro hn
    rw [(kw_get_none hc _).2 (fun v hv => hn ⟨v, hv⟩)]; rfl
  · have key : ∀ as : List PyArg, as.length ≤ 2 → bindParams kw npRunParams as = .ok [s, r, g] →
        bindParams kw nbRunParams as = .ok [s, r, (kw.get "enable_cache").getD (.bool true), g, .none] := by
      intro as hl h
      rcases as with _ | ⟨a, _ | ⟨b, _ | ⟨d, as⟩⟩⟩
      all_goals try (simp at hl; done)
      all_goals
        simp only [bindParams, npRunParams, nbRunParams, hdt] at h ⊢
        cases e1 : kw.get "shots" <;> cases e2 : kw.get "returns" <;> cases e3 : kw.get "ignore_global" <;>
          cases e4 : kw.get "enable_cache" <;> simp [PyDict.has, e1, e2, e3, e4] at h ⊢ <;>
            (obtain ⟨rfl, rfl, rfl⟩ := h; simp)
    have := key args h2 hB
    simp only [nbRunCall, if_neg hcf, this, hr, hs]

example : ∃ c : PyCall, c.kw.WF ∧ Binds runParams c [.int 100, .str "shots", .bool true] ∧ c.args.length ≤ 2 ∧ ¬Given c "dtype" ∧
    ¬Clash c := by
  refine ⟨⟨[.int 100], [("ignore_global", .bool true), ("returns", .str "shots")]⟩, by simp [PyDict.WF], ?_, by simp, by simp [Given],
    by simp [Clash, Given]⟩
  refine ((C104_binding ⟨[.int 100], [("ignore_global", .bool true), ("returns", .str "shots")]⟩ (by simp [PyDict.WF]) npRunParams).1 _).1 ?_
  simp [bindParams, npRunParams, PyDict.has, PyDict.get]

open Classical in
/-- C104. Values that are no kind of result, or no number of shots, are refused with the cache kept or checked, and nothing is run. -/
theorem C104_values (n : ℕ) (gates : List Gate) (be : NpBackend) (rnd : ℕ → ℝ) (c : PyCall) (hc : c.kw.WF) (s r g : PyArg)
    (hb : Binds runParams c [s, r, g]) (hcl : ¬Clash c) :
    ((¬∃ r', IsReturns r r') → npRunCall n gates be c rnd = (be, .error .valueError)) ∧
    (∀ r', IsReturns r r' → (¬∃ s', IsShots s s') →
      (r'.getD "shots" ∉ ["statevector", "shots", "statevector_and_shots", "_inner_ctx"] →
        npRunCall n gates be c rnd = (be, .error .valueError)) ∧
      (r'.getD "shots" ∈ ["statevector", "shots", "statevector_and_shots", "_inner_ctx"] →
        npRunCall n gates be c rnd =
          ((if r' = some "statevector" ∧ (∀ x, s ≠ .float x) then be else be.clearIfInvalid n), .error .typeError))) := by
  have hB : bindParams c.kw npRunParams c.args = .ok [s, r, g] := ((C104_binding c hc npRunParams).1 _).2 hb
  have hcf : ¬c.clashes = true := fun h => hcl ((clashes_iff hc).1 h)
  have hS : (¬∃ s', IsShots s s') → s.toShots = none := fun h => by
    cases e : s.toShots with
    | none => rfl
    | some x => exact absurd ⟨x, (toShots_iff _ _).2 e⟩ h
  have hR : (¬∃ r', IsReturns r r') → r.toReturns = none := fun h => by
    cases e : r.toReturns with
    | none => rfl
    | some x => exact absurd ⟨x, (toReturns_iff _ _).2 e⟩ h
  have hC : s.comparable = false ↔ ∀ x, s ≠ .float x := by
    rcases s with _ | i | b | x | t | l <;> simp [PyArg.comparable]
  refine ⟨fun h => ?_, fun r' hr hs => ⟨fun h => ?_, fun h => ?_⟩⟩
  · simp only [npRunCall, if_neg hcf, hB, hR h]
  · have h' : r'.getD "shots" ∉ npReturnTypes := h
    simp only [npRunCall, if_neg hcf, hB, (toReturns_iff _ _).1 hr, hS hs]
    rw [if_pos h']
  · have h' : r'.getD "shots" ∈ npReturnTypes := h
    simp only [npRunCall, if_neg hcf, hB, (toReturns_iff _ _).1 hr, hS hs, hC]
    rw [if_neg (not_not.2 h')]
    split_ifs <;> rfl

open Classical in
/-- C104. `run` on the numba backend: a call that can be bound is the run with the values given, a call that cannot be bound is a
TypeError, and values that are no kind of result, or no number of shots, are refused. -/
theorem C104_numba_values (n : ℕ) (gates : List Gate) (be : NbBackend) (rnd : ℕ → ℝ) (i : Option ℕ) (c : PyCall) (hc : c.kw.WF) :
    (∀ s r e g d, ¬Clash c → Binds numbaRunParams c [s, r, e, g, d] →
      (∀ s' r' e' g', IsShots s s' → IsReturns r r' → IsFlag e e' → IsFlag g g' →
        nbRunCall n gates be c rnd i = nbRunArgs n gates be ⟨s', r', e', g', rnd, i⟩) ∧
      ((¬∃ r', IsReturns r r') → nbRunCall n gates be c rnd i = (be, .error .valueError)) ∧
      (∀ r' e', IsReturns r r' → IsFlag e e' → (¬∃ s', IsShots s s') →
        (r'.getD "shots" ∉ ["statevector", "shots", "statevector_and_shots", "_inner_ctx"] →
          nbRunCall n gates be c rnd i = (be, .error .valueError)) ∧
        (r'.getD "shots" ∈ ["statevector", "shots", "statevector_and_shots", "_inner_ctx"] →
          nbRunCall n gates be c rnd i =
            ((if r' = some "statevector" ∧ (∀ x, s ≠ .float x) then be
              else if e' = true then be.clearIfInvalid n else ⟨none, -1⟩), .error .typeError)))) ∧
    (Clash c ∨ (¬∃ vals, Binds numbaRunParams c vals) → nbRunCall n gates be c rnd i = (be, .error .typeError)) := by
  obtain ⟨b1, b2⟩ := C104_binding c hc nbRunParams
  constructor
  · intro s r e g d hcl hb
    have hB : bindParams c.kw nbRunParams c.args = .ok [s, r, e, g, d] := (b1 _).2 hb
    have hcf : ¬c.clashes = true := fun h => hcl ((clashes_iff hc).1 h)
    have hS : (¬∃ s', IsShots s s') → s.toShots = none := fun h => by
      cases e : s.toShots with
      | none => rfl
      | some x => exact absurd ⟨x, (toShots_iff _ _).2 e⟩ h
    have hR : (¬∃ r', IsReturns r r') → r.toReturns = none := fun h => by
      cases e : r.toReturns with
      | none => rfl
      | some x => exact absurd ⟨x, (toReturns_iff _ _).2 e⟩ h
    have hC : s.comparable = false ↔ ∀ x, s ≠ .float x := by
      rcases s with _ | i | b | x | t | l <;> simp [PyArg.comparable]
    refine ⟨fun s' r' e' g' hs hr he hg => ?_, fun h => ?_, fun r' e' hr he hs => ⟨fun h => ?_, fun h => ?_⟩⟩
    · simp only [nbRunCall, if_neg hcf, hB, (toReturns_iff _ _).1 hr, (toShots_iff _ _).1 hs, (C104_truth _ _).1 he,
        (C104_truth _ _).1 hg]
    · simp only [nbRunCall, if_neg hcf, hB, hR h]
    · have h' : r'.getD "shots" ∉ nbReturnTypes := h
      simp only [nbRunCall, if_neg hcf, hB, (toReturns_iff _ _).1 hr, hS hs]
      rw [if_pos h']
    · have h' : r'.getD "shots" ∈ nbReturnTypes := h
      simp only [nbRunCall, if_neg hcf, hB, (toReturns_iff _ _).1 hr, hS hs, hC, (C104_truth _ _).1 he]
      rw [if_neg (not_not.2 h')]
      split_ifs <;> rfl
  · intro h
    by_cases hcl : Clash c
    · simp only [nbRunCall, if_pos ((clashes_iff hc).2 hcl)]
    replace h := h.resolve_left hcl
    simp only [nbRunCall, if_neg (fun h => hcl ((clashes_iff hc).1 h))]
    cases e : bindParams c.kw nbRunParams c.args with
    | error x => simp only; rw [b2 x e]
    | ok vs => exact absurd ⟨vs, (b1 vs).1 e⟩ h

/-- `run(None, None, False, shots=3)` cannot be bound; `run(10, "shots", False)` can. -/
example : (∀ vals, ¬Binds numbaRunParams ⟨[.none, .none, .bool false], [("shots", .int 3)]⟩ vals) ∧
    Binds numbaRunParams ⟨[.int 10, .str "shots", .bool false], []⟩ [.int 10, .str "shots", .bool false, .bool false, .none] := by
  constructor
  · intro vals h
    exact (h.positional 0 "shots" (some .none) .none rfl rfl).2 (.int 3) (List.mem_singleton.2 rfl)
  · refine ((C104_binding ⟨[.int 10, .str "shots", .bool false], []⟩ (by simp [PyDict.WF]) nbRunParams).1 _).1 ?_
    simp [bindParams, nbRunParams, PyDict.has, PyDict.get]

/-- `run(shots="10")`, and `run(returns=3)`. -/
example : Binds runParams ⟨[], [("shots", .str "10")]⟩ [.str "10", .none, .bool false] ∧ (¬∃ s', IsShots (.str "10") s') ∧
    (¬∃ r', IsReturns (.int 3) r') := by
  refine ⟨((C104_binding ⟨[], [("shots", .str "10")]⟩ (by simp [PyDict.WF]) npRunParams).1 _).1 ?_, ?_, ?_⟩
  · simp [bindParams, npRunParams, PyDict.get]
  · rintro ⟨_, h⟩; cases h
  · rintro ⟨_, h⟩; cases h

/-- C104, violated: the third positional argument of `run` is `ignore_global` on numpy and `enable_cache` on numba. -/
theorem C104_third_refuted (n : ℕ) (gates : List Gate) (rnd : ℕ → ℝ) (be : NpBackend) (be' : NbBackend) :
    let c : PyCall := ⟨[.none, .str "statevector", .bool true], []⟩
    npRunCall n gates be c rnd = npRunArgs n gates be ⟨none, some "statevector", true, rnd⟩ ∧
    nbRunCall n gates be' c rnd none = nbRunArgs n gates be' ⟨none, some "statevector", true, false, rnd, none⟩ := by
  simp [npRunCall, nbRunCall, bindParams, npRunParams, nbRunParams, PyDict.has, PyDict.get, PyArg.toReturns, PyArg.toShots, PyArg.truthy,
    PyCall.clashes]

theorem bindParams_other {kw : PyDict String PyArg} {k : String} {v : PyArg} (params : List (String × Option PyArg)) (as : List PyArg)
    (h : k ∉ params.map Prod.fst) : bindParams ((k, v) :: kw) params as = bindParams kw params as := by
  induction params generalizing as with
  | nil => cases as <;> rfl
  | cons p ps ih =>
    obtain ⟨p, d⟩ := p
    have h1 : k ≠ p := fun e => h (by simp [e])
    have h2 : k ∉ ps.map Prod.fst := fun e => h (by simp [e])
    have hg : PyDict.get ((k, v) :: kw) p = kw.get p := by simp only [PyDict.get, if_neg h1]
    have hh : PyDict.has ((k, v) :: kw) p = kw.has p := by simp only [PyDict.has, hg]
    cases as <;> simp only [bindParams, hg, hh, ih _ h2]

/-- C104. Keywords of other names are ignored by the simulators and by the OpenQASM output. -/
theorem C104_unknown (n : ℕ) (gates : List Gate) (rnd : ℕ → ℝ) (be : NpBackend) (be' : NbBackend) (fmt : ℝ → String) (i : Option ℕ)
    (c : PyCall) (k : String) (v : PyArg) (hk : k ∉ ["self", "gates", "n_qubits"]) :
    (k ∉ ["shots", "returns", "ignore_global"] → npRunCall n gates be ⟨c.args, (k, v) :: c.kw⟩ rnd = npRunCall n gates be c rnd) ∧
    (k ∉ ["shots", "returns", "enable_cache", "ignore_global", "dtype"] →
      nbRunCall n gates be' ⟨c.args, (k, v) :: c.kw⟩ rnd i = nbRunCall n gates be' c rnd i) ∧
    (k ≠ "output_prologue" → qaRunCall fmt n gates ⟨c.args, (k, v) :: c.kw⟩ = qaRunCall fmt n gates c) ∧
    (k ≠ "ignore_global" → syRunCall n gates ⟨c.args, (k, v) :: c.kw⟩ = syRunCall n gates c) := by
  have hh : ∀ p, k ≠ p → PyDict.has ((k, v) :: c.kw) p = c.kw.has p := fun p h => by simp only [PyDict.has, PyDict.get, if_neg h]
  simp only [List.mem_cons, List.not_mem_nil, or_false, not_or] at hk
  have hcl : PyCall.clashes ⟨c.args, (k, v) :: c.kw⟩ = c.clashes := by
    simp only [PyCall.clashes, hh _ hk.1, hh _ hk.2.1, hh _ hk.2.2]
  refine ⟨fun h => ?_, fun h => ?_, fun h => ?_, fun h => ?_⟩
  · simp only [npRunCall, hcl]
    rw [bindParams_other npRunParams c.args (by simpa [npRunParams] using h)]
  · simp only [nbRunCall, hcl]
    rw [bindParams_other nbRunParams c.args (by simpa [nbRunParams] using h)]
  · simp only [qaRunCall, hcl]
    rw [bindParams_other _ c.args (by simpa using h)]
  · simp only [syRunCall, hcl, PyDict.get, if_neg h]

/-- C104, violated: a misspelt `run(shot=100)` is a run without shots. -/
theorem C104_typo_refuted (n : ℕ) (gates : List Gate) (rnd : ℕ → ℝ) (be : NpBackend) :
    npRunCall n gates be ⟨[], [("shot", .int 100)]⟩ rnd = npRunArgs n gates be ⟨none, none, false, rnd⟩ := by
  simp [npRunCall, bindParams, npRunParams, PyDict.has, PyDict.get, PyArg.toReturns, PyArg.toShots, PyArg.truthy,
    PyCall.clashes]

/-- C104. `to_qasm` takes `output_prologue` by position or by name; a second positional argument is a TypeError. -/
theorem C104_qasm (fmt : ℝ → String) (n : ℕ) (gates : List Gate) (c : PyCall) (hc : c.kw.WF) :
    (∀ v b, ¬Clash c → Binds [("output_prologue", some (.bool true))] c [v] → IsFlag v b →
      qaRunCall fmt n gates c = qaRun fmt n gates b) ∧
    (Clash c ∨ (¬∃ vals, Binds [("output_prologue", some (.bool true))] c vals) → qaRunCall fmt n gates c = .error .typeError) := by
  obtain ⟨b1, b2⟩ := C104_binding c hc [("output_prologue", some (.bool true))]
  constructor
  · intro v b hcl hb hv
    rw [C104_truth] at hv
    subst hv
    simp only [qaRunCall, if_neg (fun h => hcl ((clashes_iff hc).1 h)), (b1 _).2 hb, List.headD_cons]
  · intro h
    by_cases hcl : Clash c
    · simp only [qaRunCall, if_pos ((clashes_iff hc).2 hcl)]
    replace h := h.resolve_left hcl
    simp only [qaRunCall, if_neg (fun h => hcl ((clashes_iff hc).1 h))]
    cases e : bindParams c.kw [("output_prologue", some (.bool true))] c.args with
    | error x => simp only; rw [b2 x e]
    | ok vs => exact absurd ⟨vs, (b1 vs).1 e⟩ h

/-- `to_qasm(output_prologue=False)`, and the calls `to_qasm(False, True)` and `to_qasm(n_qubits=3)` that are refused. -/
example : Binds [("output_prologue", some (.bool true))] ⟨[], [("output_prologue", .bool false)]⟩ [.bool false] ∧
    (∀ vals, ¬Binds [("output_prologue", some (.bool true))] ⟨[.bool false, .bool true], []⟩ vals) ∧ Clash ⟨[], [("n_qubits", .int 3)]⟩ := by
  refine ⟨((C104_binding ⟨[], [("output_prologue", .bool false)]⟩ (by simp [PyDict.WF]) _).1 _).1 ?_, fun vals h => ?_, ?_⟩
  · simp [bindParams, PyDict.get]
  · have := h.enough; simp at this
  · exact .inr (.inr ⟨_, List.mem_singleton.2 rfl⟩)

/-- C104. `to_unitary` takes `ignore_global` by name. -/
theorem C104_sympy (n : ℕ) (gates : List Gate) (c : PyCall) (hc : c.kw.WF) :
    (∀ v b, ¬Clash c → ("ignore_global", v) ∈ c.kw → IsFlag v b → syRunCall n gates c = syRun n gates b) ∧
    (¬Clash c → ¬Given c "ignore_global" → syRunCall n gates c = syRun n gates false) ∧
    (Clash c → syRunCall n gates c = .error .typeError) := by
  refine ⟨?_, ?_, fun h => by simp only [syRunCall, if_pos ((clashes_iff hc).2 h)]⟩
  · intro v b hcl hv hb
    rw [C104_truth] at hb
    subst hb
    simp only [syRunCall, if_neg (fun h => hcl ((clashes_iff hc).1 h)), (kw_get_iff hc _ v).2 hv, Option.getD_some]
  · intro hcl h
    simp only [syRunCall, if_neg (fun h => hcl ((clashes_iff hc).1 h)), (kw_get_none hc "ignore_global").2 (fun v hv => h ⟨v, hv⟩), Option.getD_none, PyArg.truthy]

/-- C104, violated: `to_unitary(True)` ignores its argument. -/
theorem C104_sympy_refuted (n : ℕ) (gates : List Gate) : syRunCall n gates ⟨[.bool true], []⟩ = syRun n gates false := by
  simp [syRunCall, PyDict.get, PyDict.has, PyArg.truthy, PyCall.clashes]

/-- C104. `circuit.run(..., backend=b)` passes every other argument on to the backend. -/
theorem C104_backend (c : PyCall) (hc : c.kw.WF) :
    (splitBackend c).2.args = c.args ∧ (∀ p v, (p, v) ∈ (splitBackend c).2.kw ↔ (p, v) ∈ c.kw ∧ p ≠ "backend") ∧
    (∀ v, ("backend", v) ∈ c.kw → (splitBackend c).1 = v) ∧ (¬Given c "backend" → (splitBackend c).1 = .none) := by
  refine ⟨rfl, fun p v => ?_, fun v hv => ?_, fun h => ?_⟩
  · simp [splitBackend, PyCall.rest, List.mem_filter]
  · simp only [splitBackend, (kw_get_iff hc _ v).2 hv, Option.getD_some]
  · simp only [splitBackend, (kw_get_none hc "backend").2 (fun v hv => h ⟨v, hv⟩), Option.getD_none]

end

end Blueqat
