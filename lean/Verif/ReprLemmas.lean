import Verif.Repr
import Verif.Spec.Repr
import Verif.Spec.Append
import Verif.QasmLemmas

/-!
# Reading back the text of circuits
-/

set_option linter.unusedSimpArgs false
set_option linter.unusedVariables false

namespace Blueqat

open Spec

theorem int_chars (i : ℤ) : ∀ c ∈ (toString i).toList, c.isDigit = true ∨ c = '-' := by
  intro c hc
  cases i with
  | ofNat k => exact .inl (digit_of_mem k c hc)
  | negSucc m =>
    have h : (toString (Int.negSucc m)) = "-" ++ toString (m + 1) := rfl
    rw [h] at hc
    simp only [String.toList_append, List.mem_append] at hc
    rcases hc with hc | hc
    · right; simpa using hc
    · exact .inl (digit_of_mem (m + 1) c hc)

theorem readInt_text (i : ℤ) : readInt (toString i).toList = some i := by
  cases i with
  | ofNat k =>
    have h : toString (Int.ofNat k) = toString k := rfl
    rw [h]
    have hk : (String.ofList (toString k).toList).toNat? = some k := by
      rw [String.ofList_toList]; exact Nat.toNat?_repr k
    have hd := digit_of_mem k
    unfold readInt
    split
    · rename_i ds heq
      have := hd '-' (by rw [heq]; simp)
      simp at this
    · rw [hk]; rfl
  | negSucc m =>
    have h : (toString (Int.negSucc m)) = "-" ++ toString (m + 1) := rfl
    rw [h]
    have h2 : ("-" ++ toString (m + 1)).toList = '-' :: (toString (m + 1)).toList := by
      simp
    rw [h2]
    simp only [readInt, String.ofList_toList]
    rw [show (toString (m + 1)).toNat? = some (m + 1) from Nat.toNat?_repr (m + 1)]
    simp [Int.negSucc_eq]

theorem toString_ne_nil (i : ℤ) : (toString i).toList ≠ [] := by
  cases i with
  | ofNat k =>
    show (Nat.repr k).toList ≠ []
    rw [Nat.toList_repr]
    exact Nat.toDigits_ne_nil
  | negSucc m =>
    have h : (toString (Int.negSucc m)) = "-" ++ toString (m + 1) := rfl
    rw [h]
    simp

theorem readBound_text (o : Option ℤ) : readBound (strBound o).toList = some o := by
  cases o with
  | none => simp [strBound, readBound]
  | some i => simp only [strBound, readBound, if_neg (toString_ne_nil i), readInt_text, Option.map_some]

theorem bound_chars (o : Option ℤ) : ∀ c ∈ (strBound o).toList, c.isDigit = true ∨ c = '-' := by
  cases o with
  | none => simp [strBound]
  | some i => exact int_chars i

/-- The subscript element that is written for an atom. -/
def subOf : Atom → PySub
  | .int i => .int i
  | .slice a b c => .slice a b c
  | .bad => .int 0

theorem not_colon {s : List Char} (h : ∀ c ∈ s, c.isDigit = true ∨ c = '-') : ':' ∉ s := by
  intro hc
  rcases h _ hc with h | h
  · simp at h
  · simp at h

theorem readSub_text {a : Atom} {t : String} (h : sliceToStr a = .ok t) : readSub t.toList = some (subOf a) := by
  cases a with
  | int i =>
    simp only [sliceToStr, Except.ok.injEq] at h
    subst h
    simp only [readSub, splitChar_none ':' _ (not_colon (int_chars i)), readInt_text, Option.map_some, subOf]
  | bad => simp [sliceToStr] at h
  | slice a b c =>
    cases c with
    | none =>
      simp only [sliceToStr, Except.ok.injEq] at h
      subst h
      have e : (strBound a ++ ":" ++ strBound b).toList = (strBound a).toList ++ ':' :: (strBound b).toList := by simp
      rw [readSub, e, splitChar_append ':' _ _ (not_colon (bound_chars a)),
        splitChar_none ':' _ (not_colon (bound_chars b))]
      simp only [readBound_text, subOf]
    | some c =>
      simp only [sliceToStr, Except.ok.injEq] at h
      subst h
      have e : (strBound a ++ ":" ++ strBound b ++ ":" ++ toString c).toList =
          (strBound a).toList ++ ':' :: ((strBound b).toList ++ ':' :: (toString c).toList) := by simp
      have hc : readBound (toString c).toList = some (some c) := readBound_text (some c)
      rw [readSub, e, splitChar_append ':' _ _ (not_colon (bound_chars a)),
        splitChar_append ':' _ _ (not_colon (bound_chars b)), splitChar_none ':' _ (not_colon (int_chars c))]
      simp only [readBound_text, hc, subOf]

theorem sub_chars {a : Atom} {t : String} (h : sliceToStr a = .ok t) :
    ∀ c ∈ t.toList, c.isDigit = true ∨ c = '-' ∨ c = ':' := by
  intro c hc
  cases a with
  | int i =>
    simp only [sliceToStr, Except.ok.injEq] at h
    subst h
    rcases int_chars i c hc with h | h <;> tauto
  | bad => simp [sliceToStr] at h
  | slice a b d =>
    have ha := bound_chars a c
    have hb := bound_chars b c
    cases d with
    | none =>
      simp only [sliceToStr, Except.ok.injEq] at h
      subst h
      simp only [String.toList_append, List.mem_append] at hc
      rcases hc with (hc | hc) | hc
      · have := ha hc; tauto
      · right; right; simpa using hc
      · have := hb hc; tauto
    | some d =>
      simp only [sliceToStr, Except.ok.injEq] at h
      subst h
      have hd := int_chars d c
      simp only [String.toList_append, List.mem_append] at hc
      rcases hc with (((hc | hc) | hc) | hc) | hc
      · have := ha hc; tauto
      · right; right; simpa using hc
      · have := hb hc; tauto
      · right; right; simpa using hc
      · have := hd hc; tauto

theorem dropBlank {s : List Char} (h : ' ' ∉ s) : s.dropWhile (fun c => decide (c = ' ')) = s := by
  cases s with
  | nil => rfl
  | cons a s =>
    have : a ≠ ' ' := fun e => h (by simp [e])
    simp [List.dropWhile, this]

theorem splitChar_pyJoin (parts : List String) (hp : ∀ p ∈ parts, ',' ∉ p.toList) (a : String) (ha : ',' ∉ a.toList) :
    splitChar ',' (pyJoin ", " (a :: parts)).toList = a.toList :: parts.map fun p => ' ' :: p.toList := by
  induction parts generalizing a with
  | nil => simp only [pyJoin, List.map_nil]; exact splitChar_none _ _ ha
  | cons b rest ih =>
    have e : (pyJoin ", " (a :: b :: rest)).toList = a.toList ++ ',' :: (' ' :: (pyJoin ", " (b :: rest)).toList) := by
      simp [pyJoin]
    rw [e, splitChar_append ',' _ _ ha]
    have hb : ',' ∉ b.toList := hp b (by simp)
    have := ih (fun p h => hp p (by simp [h])) b hb
    have hcons : splitChar ',' (' ' :: (pyJoin ", " (b :: rest)).toList) =
        (' ' :: b.toList) :: rest.map fun p => ' ' :: p.toList := by
      rw [splitChar, if_neg (by decide), this]
    rw [hcons]
    simp

theorem commaList_join {parts : List String} (hne : parts ≠ []) (hp : ∀ p ∈ parts, ',' ∉ p.toList ∧ ' ' ∉ p.toList) :
    commaList (pyJoin ", " parts).toList = parts.map String.toList := by
  cases parts with
  | nil => exact absurd rfl hne
  | cons a rest =>
    rw [commaList, splitChar_pyJoin rest (fun p h => (hp p (by simp [h])).1) a (hp a (by simp)).1]
    simp only [List.map_cons, List.map_map]
    rw [dropBlank (hp a (by simp)).2]
    congr 1
    refine List.map_congr_left fun p h => ?_
    simp only [Function.comp, List.dropWhile, decide_true]
    exact dropBlank (hp p (by simp [h])).2

theorem mem_pyJoin {sep : String} {parts : List String} {c : Char} (h : c ∈ (pyJoin sep parts).toList) :
    c ∈ sep.toList ∨ ∃ p ∈ parts, c ∈ p.toList := by
  induction parts with
  | nil => simp [pyJoin] at h
  | cons a rest ih =>
    cases rest with
    | nil => simp only [pyJoin] at h; exact .inr ⟨a, by simp, h⟩
    | cons b rest =>
      simp only [pyJoin, String.toList_append, List.mem_append] at h
      rcases h with (h | h) | h
      · exact .inr ⟨a, by simp, h⟩
      · exact .inl h
      · rcases ih h with h | ⟨p, hp, h⟩
        · exact .inl h
        · exact .inr ⟨p, by simp only [List.mem_cons] at hp ⊢; exact .inr hp, h⟩

theorem takeWhile_stop (p : Char → Bool) {s : List Char} (h : ∀ c ∈ s, p c = true) {x : Char} (hx : p x = false)
    (rest : List Char) : (s ++ x :: rest).takeWhile p = s ∧ (s ++ x :: rest).dropWhile p = x :: rest := by
  induction s with
  | nil => simp [List.takeWhile, List.dropWhile, hx]
  | cons a s ih =>
    have ha := h a (by simp)
    have := ih fun c hc => h c (by simp [hc])
    simp [List.takeWhile, List.dropWhile, ha, this]

theorem sliceToStr_ok {a : Atom} (h : a ≠ .bad) : ∃ t, sliceToStr a = .ok t := by
  cases a with
  | int i => exact ⟨_, rfl⟩
  | bad => exact absurd rfl h
  | slice a b c => cases c <;> exact ⟨_, rfl⟩

/-- What `mapM` over subscript elements prints, and how it is read. -/
theorem parts_ok {as : List Atom} (h : ∀ a ∈ as, a ≠ .bad) :
    ∃ parts : List String, (as.map Item.atom).mapM sliceToStrItem = .ok parts ∧ parts.length = as.length ∧
      (∀ p ∈ parts, ∀ c ∈ p.toList, c.isDigit = true ∨ c = '-' ∨ c = ':') ∧
      (parts.map String.toList).mapM readSub = some (as.map subOf) := by
  induction as with
  | nil => exact ⟨[], rfl, rfl, by simp, rfl⟩
  | cons a as ih =>
    obtain ⟨parts, h1, h2, h3, h4⟩ := ih fun b hb => h b (by simp [hb])
    obtain ⟨t, ht⟩ := sliceToStr_ok (h a (by simp))
    refine ⟨t :: parts, ?_, by simp [h2], ?_, ?_⟩
    · simp only [List.map_cons, List.mapM_cons, sliceToStrItem, ht, h1, bind, Except.bind, pure, Except.pure]
    · intro p hp
      rcases List.mem_cons.1 hp with rfl | hp
      · exact sub_chars ht
      · exact h3 p hp
    · simp only [List.map_cons, List.mapM_cons, readSub_text ht, h4]; rfl

theorem subChars_not {c : Char} (h : c.isDigit = true ∨ c = '-' ∨ c = ':') : c ≠ ',' ∧ c ≠ ' ' ∧ c ≠ ']' := by
  rcases h with h | rfl | rfl
  · refine ⟨?_, ?_, ?_⟩ <;> · rintro rfl; simp at h
  · decide
  · decide

theorem readSubs_parts {parts : List String} (hne : parts ≠ [])
    (hc : ∀ p ∈ parts, ∀ c ∈ p.toList, c.isDigit = true ∨ c = '-' ∨ c = ':') {subs : List PySub}
    (hs : (parts.map String.toList).mapM readSub = some subs) (rest : List Char) :
    readSubs (("[" ++ pyJoin ", " parts ++ "]").toList ++ rest) = some (subs, rest) := by
  have e : ("[" ++ pyJoin ", " parts ++ "]").toList ++ rest = '[' :: ((pyJoin ", " parts).toList ++ ']' :: rest) := by
    simp
  have hall : ∀ c ∈ (pyJoin ", " parts).toList, decide (c ≠ ']') = true := by
    intro c h
    rcases mem_pyJoin h with h | ⟨p, hp, h⟩
    · simp only [String.reduceToList, List.mem_cons, List.not_mem_nil, or_false] at h
      rcases h with rfl | rfl <;> decide
    · simpa using (subChars_not (hc p hp c h)).2.2
  obtain ⟨h1, h2⟩ := takeWhile_stop (fun c => decide (c ≠ ']')) hall (x := ']') (by decide) rest
  rw [e]
  simp only [readSubs, h1, h2]
  rw [commaList_join hne fun p hp => ⟨fun h => (subChars_not (hc p hp _ h)).1 rfl,
    fun h => (subChars_not (hc p hp _ h)).2.1 rfl⟩, hs]
  rfl

/-- The subscript with a tuple of one element replaced by the element. -/
def canonTargets : Targets → Targets
  | .tup [.atom a] => .one a
  | T => T

theorem subOf_atom {a : Atom} (h : a ≠ .bad) : (subOf a).atom = a := by
  cases a <;> simp_all [subOf, PySub.atom]

theorem strTargets_ok {T : Targets} (hT : Plain T) (hne : T ≠ .tup []) :
    ∃ t subs, strTargets T = .ok t ∧ subscript subs = canonTargets T ∧ (∃ u, t.toList = '[' :: u) ∧
      ∀ rest, readSubs (t.toList ++ rest) = some (subs, rest) := by
  cases T with
  | one a =>
    obtain ⟨parts, h1, h2, h3, h4⟩ := parts_ok (as := [a]) (by simpa [Plain] using hT)
    obtain ⟨t, ht⟩ := sliceToStr_ok (show a ≠ .bad from hT)
    have hp : parts = [t] := by
      simp only [List.map_cons, List.map_nil, List.mapM_cons, List.mapM_nil, sliceToStrItem, ht, bind, Except.bind,
        pure, Except.pure, Except.ok.injEq] at h1
      exact h1.symm
    subst hp
    refine ⟨"[" ++ t ++ "]", [subOf a], by simp [strTargets, ht], ?_, ⟨t.toList ++ [']'], by simp⟩, fun rest => ?_⟩
    · simp only [subscript, subOf_atom (show a ≠ .bad from hT), canonTargets]
    · exact readSubs_parts (by simp) h3 h4 rest
  | tup xs =>
    have hx : ∃ as : List Atom, xs = as.map .atom ∧ ∀ a ∈ as, a ≠ .bad := by
      simp only [Plain] at hT
      clear hne
      induction xs with
      | nil => exact ⟨[], rfl, by simp⟩
      | cons x xs ih =>
        obtain ⟨as, rfl, h⟩ := ih fun y hy => hT y (by simp [hy])
        obtain ⟨a, rfl, ha⟩ := hT x (by simp)
        exact ⟨a :: as, rfl, by simpa [ha] using h⟩
    obtain ⟨as, rfl, has⟩ := hx
    obtain ⟨parts, h1, h2, h3, h4⟩ := parts_ok has
    have hp : parts ≠ [] := by
      rintro rfl
      apply hne
      have : as = [] := List.length_eq_zero_iff.1 h2.symm
      simp [this]
    refine ⟨"[" ++ pyJoin ", " parts ++ "]", as.map subOf, by simp [strTargets, h1], ?_,
      ⟨(pyJoin ", " parts).toList ++ [']'], by simp⟩, fun rest => ?_⟩
    · match as, has, hne with
      | [], _, hne => simp at hne
      | [a], has, _ => simp [subscript, canonTargets, subOf_atom (has a (by simp))]
      | a :: b :: as, has, _ =>
        simp only [List.map_cons, subscript, canonTargets, List.map_map, subOf_atom (has a (by simp)),
          subOf_atom (has b (by simp))]
        congr 3
        refine List.map_congr_left fun c hc => ?_
        simp [subOf_atom (has c (by simp [hc]))]
    · exact readSubs_parts hp h3 h4 rest

variable {fmt : ℝ → String} {read : String → Option ℝ} {S : Set ℝ}

theorem readArgs_text (hf : PyNumbers fmt read S) {ps : List ℝ} (hps : ∀ x ∈ ps, x ∈ S) {u : List Char} :
    readArgs read ((strArgs fmt ps).toList ++ '[' :: u) = some (ps, '[' :: u) := by
  by_cases he : ps = []
  · subst he; simp [strArgs, readArgs]
  · have e : (strArgs fmt ps).toList ++ '[' :: u =
        '(' :: ((pyJoin ", " (ps.map fmt)).toList ++ ')' :: '[' :: u) := by
      simp [strArgs, he]
    have hall : ∀ c ∈ (pyJoin ", " (ps.map fmt)).toList, decide (c ≠ ')') = true := by
      intro c h
      rcases mem_pyJoin h with h | ⟨p, hp, h⟩
      · simp only [String.reduceToList, List.mem_cons, List.not_mem_nil, or_false] at h
        rcases h with rfl | rfl <;> decide
      · obtain ⟨x, hx, rfl⟩ := List.mem_map.1 hp
        simpa using (hf.clean x (hps x hx) c h).2.2
    obtain ⟨h1, h2⟩ := takeWhile_stop (fun c => decide (c ≠ ')')) hall (x := ')') (by decide) ('[' :: u)
    rw [e]
    simp only [readArgs, h1, h2]
    rw [commaList_join (by simpa using he)]
    · have : ((ps.map fmt).map String.toList).mapM (fun p => read (String.ofList p)) = some ps := by
        have h := mapM_map' (fun p => read (String.ofList p)) (fun x => (fmt x).toList) id ps (fun x hx => by
          simp only [String.ofList_toList, id]; exact hf.back x (hps x hx))
        simpa [List.map_map, Function.comp_def] using h
      rw [this]; rfl
    · intro p hp
      obtain ⟨x, hx, rfl⟩ := List.mem_map.1 hp
      exact ⟨fun h => (hf.clean x (hps x hx) _ h).2.1 rfl, fun h => (hf.clean x (hps x hx) _ h).1 rfl⟩

theorem lowername_chars (g : Gate) : ∀ c ∈ g.lowername.toList, c.isAlphanum = true := by
  rcases g with ⟨k, T⟩ | ⟨k, T⟩ | ⟨k, T⟩ | T | T
  · cases k <;> simp only [Gate.lowername, G1.lowername] <;> decide
  · cases k <;> simp only [Gate.lowername, G2.lowername] <;> decide
  · cases k <;> simp only [Gate.lowername, G3.lowername] <;> decide
  · simp only [Gate.lowername]; decide
  · simp only [Gate.lowername]; decide

/-- The parameters of a gate belong to `S`. -/
def ParamsIn (S : Set ℝ) (g : Gate) : Prop := ∀ x ∈ g.params, x ∈ S

theorem strGate_ok (hf : PyNumbers fmt read S) {g : Gate} (hp : ∀ x ∈ g.params, x ∈ S) (hT : Plain g.targets)
    (hne : g.targets ≠ .tup []) :
    ∃ t subs, strGate fmt g = .ok t ∧ subscript subs = canonTargets g.targets ∧ t.toList ≠ [] ∧
      ∀ rest, readCall read (t.toList ++ rest) = some (⟨g.lowername, g.params, subs⟩, rest) := by
  obtain ⟨t, subs, h1, h2, ⟨u, hu⟩, h3⟩ := strTargets_ok hT hne
  refine ⟨g.lowername ++ strArgs fmt g.params ++ t, subs, by simp [strGate, h1], h2, by simp [hu], fun rest => ?_⟩
  have e : (g.lowername ++ strArgs fmt g.params ++ t).toList ++ rest =
      g.lowername.toList ++ ((strArgs fmt g.params).toList ++ '[' :: (u ++ rest)) := by
    simp [hu]
  have hx : ∃ x v, x.isAlphanum = false ∧ (strArgs fmt g.params).toList ++ '[' :: (u ++ rest) = x :: v := by
    by_cases he : g.params = []
    · exact ⟨'[', u ++ rest, by decide, by simp [strArgs, he]⟩
    · exact ⟨'(', (pyJoin ", " (g.params.map fmt)).toList ++ ')' :: '[' :: (u ++ rest), by decide, by simp [strArgs, he]⟩
  obtain ⟨x, v, hx, hv⟩ := hx
  obtain ⟨h4, h5⟩ := takeWhile_stop Char.isAlphanum (lowername_chars g) hx v
  rw [e, readCall, hv, h4, h5, ← hv, readArgs_text hf hp]
  have := h3 rest
  rw [hu] at this
  simp only [List.cons_append] at this
  simp only [this, String.ofList_toList]

theorem readCalls_text (hf : PyNumbers fmt read S) (ops : List Gate) (hp : ∀ g ∈ ops, ∀ x ∈ g.params, x ∈ S)
    (hT : ∀ g ∈ ops, Plain g.targets ∧ g.targets ≠ .tup []) :
    ∃ parts calls, ops.mapM (strGate fmt) = .ok parts ∧ parts.length = ops.length ∧
      calls.map (fun c : PyCall => (c.name, c.args, subscript c.subs)) =
        ops.map (fun g => (g.lowername, g.params, canonTargets g.targets)) ∧
      ∀ fuel, (parts.flatMap fun p => '.' :: p.toList).length ≤ fuel →
        readCalls read fuel (parts.flatMap fun p => '.' :: p.toList) = some calls := by
  induction ops with
  | nil => exact ⟨[], [], rfl, rfl, rfl, fun fuel _ => by cases fuel <;> rfl⟩
  | cons g ops ih =>
    obtain ⟨parts, calls, h1, h2, h3, h4⟩ := ih (fun g h => hp g (by simp [h])) (fun g h => hT g (by simp [h]))
    obtain ⟨t, subs, k1, k2, k3, k4⟩ := strGate_ok hf (hp g (by simp)) (hT g (by simp)).1 (hT g (by simp)).2
    refine ⟨t :: parts, ⟨g.lowername, g.params, subs⟩ :: calls, ?_, by simp [h2], ?_, ?_⟩
    · simp only [List.mapM_cons, k1, h1, bind, Except.bind, pure, Except.pure]
    · simp only [List.map_cons, k2, h3]
    · intro fuel hfuel
      simp only [List.flatMap_cons, List.length_append, List.length_cons, List.cons_append] at hfuel ⊢
      cases fuel with
      | zero => omega
      | succ fuel =>
        simp only [readCalls, k4]
        rw [h4 fuel (by omega)]
        rfl

theorem pyJoin_dots (p : String) (parts : List String) :
    '.' :: (pyJoin "." (p :: parts)).toList = (p :: parts).flatMap fun p => '.' :: p.toList := by
  induction parts generalizing p with
  | nil => simp [pyJoin]
  | cons q parts ih =>
    have := ih q
    simp only [List.flatMap_cons, List.cons_append] at this ⊢
    simp only [pyJoin, String.toList_append, List.append_assoc, List.cons_append]
    rw [← this]
    simp

theorem readCircuit_text (n : ℕ) (rest : List Char) {calls : List PyCall}
    (h : readCalls read rest.length rest = some calls) :
    readCircuit read (("Circuit(" ++ toString n ++ ")").toList ++ rest) = some (n, calls) := by
  have e : ("Circuit(" ++ toString n ++ ")").toList ++ rest =
      "Circuit(".toList ++ ((toString n).toList ++ ')' :: rest) := by simp
  have hd := digit_of_mem n
  obtain ⟨h1, h2⟩ := takeWhile_stop Char.isDigit hd (x := ')') (by decide) rest
  have hk : (String.ofList (toString n).toList).toNat? = some n := by
    rw [String.ofList_toList]; exact Nat.toNat?_repr n
  rw [e, readCircuit, if_pos (by simp [List.isPrefixOf_iff_prefix])]
  simp only [List.drop_left, h1, h2, hk, h]
  rfl

end Blueqat
