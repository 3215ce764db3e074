import Verif.Spec.Qasm
import Std.Data.String.ToNat

/-! Lemmas: the parser reads back the text of a program. -/

set_option linter.unusedSimpArgs false
set_option linter.unusedVariables false

namespace Spec

noncomputable section

theorem splitChar_none (c : Char) (l : List Char) (h : c ∉ l) : splitChar c l = [l] := by
  induction l with
  | nil => rfl
  | cons x xs ih =>
    simp only [List.mem_cons, not_or] at h
    simp only [splitChar]
    rw [if_neg (Ne.symm h.1), ih h.2]

theorem splitChar_append (c : Char) (a b : List Char) (h : c ∉ a) : splitChar c (a ++ c :: b) = a :: splitChar c b := by
  induction a with
  | nil => simp [splitChar]
  | cons x xs ih =>
    simp only [List.mem_cons, not_or] at h
    simp only [List.cons_append, splitChar]
    rw [if_neg (Ne.symm h.1), ih h.2]

theorem splitChar_join (c : Char) (sep : String) (hs : sep.toList = [c]) (parts : List String) (hne : parts ≠ [])
    (h : ∀ p ∈ parts, c ∉ p.toList) : splitChar c (joinWith sep parts).toList = parts.map String.toList := by
  induction parts with
  | nil => exact absurd rfl hne
  | cons a rest ih =>
    cases rest with
    | nil => simp only [joinWith, List.map_cons, List.map_nil]; exact splitChar_none _ _ (h a (by simp))
    | cons b rest =>
      simp only [joinWith, String.toList_append, hs, List.append_assoc, List.singleton_append]
      rw [splitChar_append _ _ _ (h a (by simp)), ih (by simp) (fun p hp => h p (by simp [hp]))]
      rfl

theorem cutComment_none (l : List Char) (h : '/' ∉ l) : cutComment l = l := by
  induction l with
  | nil => rfl
  | cons x xs ih =>
    simp only [List.mem_cons, not_or] at h
    simp only [cutComment]
    rw [if_neg (fun hh => h.1 hh.1.symm), ih h.2]

theorem cutComment_append (a b : List Char) (h : '/' ∉ a) : cutComment (a ++ '/' :: '/' :: b) = a := by
  induction a with
  | nil => simp [cutComment]
  | cons x xs ih =>
    simp only [List.mem_cons, not_or] at h
    simp only [List.cons_append, cutComment]
    rw [if_neg (fun hh => h.1 hh.1.symm), ih h.2]

theorem mem_join (sep : String) (parts : List String) (c : Char) (h : c ∈ (joinWith sep parts).toList) :
    c ∈ sep.toList ∨ ∃ p ∈ parts, c ∈ p.toList := by
  induction parts with
  | nil => simp [joinWith] at h
  | cons a rest ih =>
    cases rest with
    | nil => simp only [joinWith] at h; exact .inr ⟨a, by simp, h⟩
    | cons b rest =>
      simp only [joinWith, String.toList_append, List.mem_append] at h
      rcases h with (h | h) | h
      · exact .inr ⟨a, by simp, h⟩
      · exact .inl h
      · rcases ih h with h | ⟨p, hp, h⟩
        · exact .inl h
        · exact .inr ⟨p, by simp only [List.mem_cons] at hp ⊢; exact .inr hp, h⟩

theorem digit_of_mem (n : ℕ) (c : Char) (h : c ∈ (toString n).toList) : c.isDigit = true := by
  have : (toString n).toList = Nat.toDigits 10 n := by
    show (Nat.repr n).toList = _
    simp [Nat.repr]
  rw [this] at h
  exact Nat.isDigit_of_mem_toDigits (by norm_num) (by norm_num) h

theorem parseRef_text (r : Char) (i : ℕ) :
    parseRef r (r :: '[' :: ((toString i).toList ++ [']'])) = some i := by
  simp only [parseRef]
  rw [if_pos (by simp)]
  simp only [List.dropLast_concat, String.ofList_toList]
  exact Nat.toNat?_repr i

theorem qubitText_toList (i : ℕ) : (qubitText i).toList = 'q' :: '[' :: ((toString i).toList ++ [']']) := by
  simp [qubitText]

theorem mapM_map {α β : Type} (f : β → Option α) (g : α → β) (h : ∀ a, f (g a) = some a) (l : List α) :
    (l.map g).mapM f = some l := by
  induction l with
  | nil => rfl
  | cons a l ih => simp [h, ih]

theorem mapM_map' {α β γ : Type} (f : β → Option γ) (g : α → β) (k : α → γ) (l : List α)
    (h : ∀ a ∈ l, f (g a) = some (k a)) : (l.map g).mapM f = some (l.map k) := by
  induction l with
  | nil => rfl
  | cons a l ih => simp [h a (by simp), ih fun a ha => h a (by simp [ha])]

variable {fmt : ℝ → String} {read : String → Option ℝ} {S : Set ℝ}

theorem parseHead_text (hf : NumberFormat fmt read S) (name : String) (hn : '(' ∉ name.toList) (ps : List ℝ)
    (hp : ∀ x ∈ ps, x ∈ S) :
    parseHead read (name ++ paramsText fmt ps).toList = some (name, ps) := by
  cases ps with
  | nil =>
    simp only [paramsText, String.append_empty, parseHead]
    rw [splitChar_none _ _ hn]
    simp
  | cons p ps =>
    simp only [paramsText, String.toList_append, parseHead]
    have e : ("(" : String).toList = ['('] := rfl
    have e' : (")" : String).toList = [')'] := rfl
    rw [e, e', List.append_assoc, List.singleton_append, splitChar_append _ _ _ hn, splitChar_none]
    · simp only [List.getLast?_append, List.getLast?_singleton, Option.some_or, if_true, List.dropLast_concat]
      rw [splitChar_join ',' "," rfl _ (by simp) (by
        intro s hs
        obtain ⟨x, hx, rfl⟩ := List.mem_map.1 hs
        intro hc
        exact hf.2 x (hp x hx) _ hc (by simp)), List.map_map]
      rw [mapM_map' _ _ id _ (fun x hx => by simp [hf.1 x (hp x hx)])]
      simp
    · intro hc
      simp only [List.mem_append, List.mem_singleton] at hc
      rcases hc with hc | hc
      · rcases mem_join _ _ _ hc with h | ⟨s, hs, h⟩
        · revert h; decide
        · obtain ⟨x, hx, rfl⟩ := List.mem_map.1 hs
          exact hf.2 x (hp x hx) _ h (by simp)
      · revert hc; decide

/-- What the name of a statement may not contain. -/
theorem ident_chars {name : String} (h : IsIdent name) : ∀ c ∈ name.toList, c.isAlphanum = true := by
  obtain ⟨⟨c, cs, h1, h2, h3⟩, -⟩ := h
  intro d hd
  rw [h1] at hd
  rcases List.mem_cons.1 hd with rfl | hd
  · simp [Char.isAlphanum, Char.isAlpha, h2]
  · exact h3 d hd

theorem ident_not {name : String} (h : IsIdent name) (c : Char) (hc : c.isAlphanum = false) : c ∉ name.toList :=
  fun hm => by rw [ident_chars h c hm] at hc; cases hc

theorem ref_not (i : ℕ) (c : Char) (hc : c.isDigit = false) (h' : c ≠ 'q' ∧ c ≠ '[' ∧ c ≠ ']') :
    c ∉ (qubitText i).toList := by
  rw [qubitText_toList]
  intro h
  simp only [List.mem_cons, List.mem_append, List.mem_singleton, List.not_mem_nil, or_false, h'.1, h'.2.1, h'.2.2, false_or] at h
  rw [digit_of_mem i c h] at hc; cases hc

theorem head_not (hf : NumberFormat fmt read S) {name : String} (hn : IsIdent name) (ps : List ℝ)
    (hp : ∀ x ∈ ps, x ∈ S) (c : Char)
    (hc : c.isAlphanum = false) (h1 : c ≠ '(' ∧ c ≠ ')' ∧ c ≠ ',') (h2 : c ∈ [' ', ',', '(', ')', ';', '/', '\n']) :
    c ∉ (name ++ paramsText fmt ps).toList := by
  simp only [String.toList_append, List.mem_append, not_or]
  refine ⟨ident_not hn c hc, ?_⟩
  cases ps with
  | nil => simp [paramsText]
  | cons p ps =>
    simp only [paramsText, String.toList_append, List.mem_append, not_or]
    have e : ("(" : String).toList = ['('] := rfl
    have e' : (")" : String).toList = [')'] := rfl
    rw [e, e']
    refine ⟨⟨by simp [h1.1], fun h => ?_⟩, by simp [h1.2.1]⟩
    rcases mem_join _ _ _ h with h | ⟨s, hs, h⟩
    · have e : ("," : String).toList = [','] := rfl
      rw [e] at h; simp [h1.2.2] at h
    · obtain ⟨x, hx, rfl⟩ := List.mem_map.1 hs
      exact hf.2 x (hp x hx) _ h h2

theorem args_not (qs : List ℕ) (c : Char) (hc : c.isDigit = false) (h' : c ≠ 'q' ∧ c ≠ '[' ∧ c ≠ ']' ∧ c ≠ ',') :
    c ∉ (joinWith "," (qs.map qubitText)).toList := by
  intro h
  rcases mem_join _ _ _ h with h | ⟨s, hs, h⟩
  · have e : ("," : String).toList = [','] := rfl
    rw [e] at h; simp [h'.2.2.2] at h
  · obtain ⟨x, -, rfl⟩ := List.mem_map.1 hs
    exact ref_not x c hc ⟨h'.1, h'.2.1, h'.2.2.1⟩ h

/-- The statement without its semicolon. -/
def QStmt.body (fmt : ℝ → String) : QStmt → String
  | .gate name ps qs => name ++ paramsText fmt ps ++ " " ++ joinWith "," (qs.map qubitText)
  | .measure q c => "measure q[" ++ toString q ++ "] -> c[" ++ toString c ++ "]"
  | .reset q => "reset q[" ++ toString q ++ "]"

theorem text_eq (s : QStmt) : s.text fmt = s.body fmt ++ ";" := by
  cases s <;> simp only [QStmt.text, QStmt.body, String.append_assoc] <;> rfl

theorem nat_not (i : ℕ) (c : Char) (hc : c.isDigit = false) : c ∉ (toString i).toList :=
  fun h => by rw [digit_of_mem i c h] at hc; cases hc

theorem nat_not' (i : ℕ) (c : Char) (hc : c.isDigit = false) : c ∉ Nat.toDigits 10 i := fun h => by
  rw [Nat.isDigit_of_mem_toDigits (by norm_num) (by norm_num) h] at hc; cases hc

theorem body_not (hf : NumberFormat fmt read S) {n : ℕ} {s : QStmt} (hs : s.WellFormed n)
    (hp : ∀ x ∈ s.params, x ∈ S) (c : Char)
    (hc : c ∈ [';', '/', '\n']) : c ∉ (s.body fmt).toList := by
  have hd : c.isDigit = false := by simp at hc; rcases hc with rfl | rfl | rfl <;> decide
  have ha : c.isAlphanum = false := by simp at hc; rcases hc with rfl | rfl | rfl <;> decide
  cases s with
  | gate name ps qs =>
    simp only [QStmt.body]
    rw [String.toList_append, String.toList_append, List.mem_append, List.mem_append, not_or, not_or]
    refine ⟨⟨head_not hf hs.1 ps hp c ha ?_ ?_, ?_⟩, args_not qs c hd ?_⟩ <;> simp at hc <;>
      rcases hc with rfl | rfl | rfl <;> decide
  | measure q c' =>
    simp only [QStmt.body, String.toList_append, List.mem_append, not_or]
    refine ⟨⟨⟨⟨?_, nat_not q c hd⟩, ?_⟩, nat_not c' c hd⟩, ?_⟩ <;> simp at hc <;>
      rcases hc with rfl | rfl | rfl <;> decide
  | reset q =>
    simp only [QStmt.body, String.toList_append, List.mem_append, not_or]
    refine ⟨⟨?_, nat_not q c hd⟩, ?_⟩ <;> simp at hc <;> rcases hc with rfl | rfl | rfl <;> decide

theorem parseBody_text (hf : NumberFormat fmt read S) {n : ℕ} {s : QStmt} (hs : s.WellFormed n)
    (hp : ∀ x ∈ s.params, x ∈ S) :
    parseBody read (s.body fmt).toList = some s := by
  cases s with
  | gate name ps qs =>
    simp only [QStmt.body]
    have e : (" " : String).toList = [' '] := rfl
    rw [String.toList_append, String.toList_append (s := name ++ _), e, List.append_assoc, List.singleton_append, parseBody,
      splitChar_append _ _ _ (head_not hf hs.1 ps hp ' ' (by decide) (by decide) (by decide)),
      splitChar_none _ _ (args_not qs ' ' (by decide) (by decide))]
    simp only
    rw [if_neg, parseHead_text hf name (ident_not hs.1 '(' (by decide)) ps hp,
      splitChar_join ',' "," rfl _ (by simpa using hs.2.1) (by
        intro p hp
        obtain ⟨x, -, rfl⟩ := List.mem_map.1 hp
        exact ref_not x _ (by decide) (by decide)), List.map_map,
      mapM_map _ _ (fun x => by simp only [Function.comp]; rw [qubitText_toList]; exact parseRef_text 'q' x)]
    intro h
    have h' : name ++ paramsText fmt ps = "reset" := String.toList_inj.1 h
    cases ps with
    | nil =>
      simp only [paramsText, String.append_empty] at h'
      exact hs.1.2 (by rw [h']; simp)
    | cons p ps =>
      have : '(' ∈ (name ++ paramsText fmt (p :: ps)).toList := by
        simp [paramsText]
      rw [h'] at this; revert this; decide
  | measure q c =>
    simp only [QStmt.body]
    have e : ("measure q[" ++ toString q ++ "] -> c[" ++ toString c ++ "]").toList =
        "measure".toList ++ ' ' :: ('q' :: '[' :: ((toString q).toList ++ [']']) ++ ' ' :: ("->".toList ++ ' ' ::
          ('c' :: '[' :: ((toString c).toList ++ [']'])))) := by
      simp [String.toList_append]
    rw [e, parseBody, splitChar_append _ _ _ (by decide), splitChar_append, splitChar_append _ _ _ (by decide),
      splitChar_none]
    · simp only [parseRef_text]
      rfl
    · simp [nat_not' c ' ' (by decide)]
    · simp [nat_not' q ' ' (by decide)]
  | reset q =>
    simp only [QStmt.body]
    have e : ("reset q[" ++ toString q ++ "]").toList =
        "reset".toList ++ ' ' :: ('q' :: '[' :: ((toString q).toList ++ [']'])) := by
      simp [String.toList_append]
    rw [e, parseBody, splitChar_append _ _ _ (by decide), splitChar_none]
    · simp only [parseRef_text]
      rfl
    · simp [nat_not' q ' ' (by decide)]

theorem parseLine_text (hf : NumberFormat fmt read S) {n : ℕ} {l : QLine} (hl : l.WellFormed n)
    (hp : ∀ x ∈ l.stmt.params, x ∈ S) :
    parseLine read (l.text fmt).toList = some l.stmt := by
  have hb := fun c hc => body_not hf hl.1 hp c hc
  have e : (";" : String).toList = [';'] := rfl
  simp only [QLine.text, text_eq, parseLine]
  cases hc : l.comment with
  | none =>
    simp only [String.append_empty, String.toList_append, e]
    rw [cutComment_none, splitChar_append _ _ _ (hb _ (by simp))]
    · simp only [splitChar, List.all_nil, if_true]
      exact parseBody_text hf hl.1 hp
    · simp [hb '/' (by simp)]
  | some c =>
    have e2 : (" //" : String).toList = [' ', '/', '/'] := rfl
    simp only [String.toList_append, e, e2]
    rw [show (l.stmt.body fmt).toList ++ [';'] ++ ([' ', '/', '/'] ++ c.toList) =
      ((l.stmt.body fmt).toList ++ [';', ' ']) ++ '/' :: '/' :: c.toList by simp, cutComment_append]
    · rw [splitChar_append _ _ _ (hb _ (by simp)), splitChar_none _ _ (by decide)]
      simp only [List.all_cons, List.all_nil]
      exact parseBody_text hf hl.1 hp
    · simp [hb '/' (by simp)]

theorem line_newline (hf : NumberFormat fmt read S) {n : ℕ} {l : QLine} (hl : l.WellFormed n)
    (hp : ∀ x ∈ l.stmt.params, x ∈ S) :
    '\n' ∉ (l.text fmt).toList := by
  have hb := body_not hf hl.1 hp '\n' (by simp)
  have e : (";" : String).toList = [';'] := rfl
  have e2 : (" //" : String).toList = [' ', '/', '/'] := rfl
  simp only [QLine.text, text_eq]
  cases hc : l.comment with
  | none => simp only [String.append_empty, String.toList_append, e]; simp [hb]
  | some c => simp only [String.toList_append, e, e2]; simp [hb, hl.2 c hc]

theorem parseReg_text (kind : String) (r : Char) (n : ℕ) (hk : ∀ c ∈ kind.toList, c.isLower = true)
    (hr : r.isLower = true) :
    parseReg kind r (kind.toList ++ ' ' :: r :: '[' :: ((toString n).toList ++ [']', ';'])) = some n := by
  have hk' : ∀ c : Char, c.isLower = false → c ∉ kind.toList := fun c hc h => by rw [hk c h] at hc; cases hc
  have hr' : ∀ c : Char, c.isLower = false → r ≠ c := fun c hc h => by rw [← h, hr] at hc; cases hc
  have e : kind.toList ++ ' ' :: r :: '[' :: ((toString n).toList ++ [']', ';']) =
      (kind.toList ++ ' ' :: (r :: '[' :: ((toString n).toList ++ [']']))) ++ ';' :: [] := by simp
  rw [parseReg, e, splitChar_append]
  · simp only [splitChar]
    rw [splitChar_append _ _ _ (hk' _ (by decide)), splitChar_none]
    · simp only [if_true, parseRef_text]
    · simp [nat_not' n ' ' (by decide), (hr' ' ' (by decide)).symm]
  · simp [nat_not' n ';' (by decide), hk' ';' (by decide), (hr' ';' (by decide)).symm]

theorem parseProgram_text (hf : NumberFormat fmt read S) {n : ℕ} {lines : List QLine} (hl : ∀ l ∈ lines, l.WellFormed n)
    (hp : ∀ l ∈ lines, ∀ x ∈ l.stmt.params, x ∈ S) :
    parseProgram read (programText fmt n lines) = some (n, n, lines.map QLine.stmt) := by
  rw [parseProgram, programText, splitChar_join '\n' "\n" rfl _ (by simp [header])]
  · have e1 : ("qreg q[" ++ toString n ++ "];").toList =
        "qreg".toList ++ ' ' :: 'q' :: '[' :: ((toString n).toList ++ [']', ';']) := by simp
    have e2 : ("creg c[" ++ toString n ++ "];").toList =
        "creg".toList ++ ' ' :: 'c' :: '[' :: ((toString n).toList ++ [']', ';']) := by simp
    simp only [header, List.map_append, List.map_cons, List.map_nil, List.cons_append, List.nil_append, and_self,
      if_true, e1, e2]
    rw [parseReg_text "qreg" 'q' n (by decide) (by decide), parseReg_text "creg" 'c' n (by decide) (by decide),
      List.map_map, mapM_map' _ (String.toList ∘ QLine.text fmt) QLine.stmt lines (fun l h => parseLine_text hf (hl l h) (hp l h))]
  · intro p hm
    rcases List.mem_append.1 hm with hm | hm
    · simp only [header, List.mem_cons, List.not_mem_nil, or_false] at hm
      rcases hm with rfl | rfl | rfl | rfl
      · decide
      · decide
      · simp only [String.toList_append, List.mem_append, not_or]
        exact ⟨⟨by decide, nat_not n _ (by decide)⟩, by decide⟩
      · simp only [String.toList_append, List.mem_append, not_or]
        exact ⟨⟨by decide, nat_not n _ (by decide)⟩, by decide⟩
    · obtain ⟨l, h, rfl⟩ := List.mem_map.1 hm
      exact line_newline hf (hl l h) (hp l h)

end

end Spec
