import Verif.PauliReduced
import Verif.PauliSimplify
import Verif.Spec.PauliChars

/-!
# Property C41: terms from strings
-/

set_option linter.unusedSimpArgs false
set_option linter.unusedVariables false

namespace Blueqat

open Spec

/-- The operators of a list of Pauli objects. -/
def paulisOps : List Pauli → List POp
  | [] => []
  | .I :: l => paulisOps l
  | .op o :: l => o :: paulisOps l

/-- The Pauli object of a letter. -/
def letterPauli (n : ℕ) : Option PLetter → Pauli
  | none => .I
  | some p => .op ⟨p, n⟩

theorem pauliFromChar_some {c : Char} {l : Option PLetter} (h : charLetter c = some l) (n : ℕ) :
    pauliFromChar c n = .ok (letterPauli n l) := by
  unfold charLetter at h
  split at h <;> simp at h <;> subst h <;> rfl

theorem toUpper_cases (c d d' : Char) (hd : d'.val = d.val - ('A'.val - 'a'.val)) (h : c.toUpper = d) :
    c = d ∨ c = d' := by
  unfold Char.toUpper at h
  split at h
  · right
    apply Char.ext
    have h := congrArg Char.val h
    rw [hd]
    simp only at h
    rw [← h, UInt32.add_sub_cancel]
  · left; exact h

theorem pauliFromChar_none {c : Char} (h : charLetter c = none) (h' : c ≠ Char.ofNat 0x131) (n : ℕ) :
    pauliFromChar c n = .error .valueError := by
  have key : ∀ d d' : Char, d'.val = d.val - ('A'.val - 'a'.val) → charLetter d ≠ none → charLetter d' ≠ none →
      c.toUpper ≠ d := by
    intro d d' hd h1 h2 hu
    rcases toUpper_cases c d d' hd hu with rfl | rfl
    · exact h1 h
    · exact h2 h
  have hI := key 'I' 'i' (by decide) (by decide) (by decide)
  have hX := key 'X' 'x' (by decide) (by decide) (by decide)
  have hY := key 'Y' 'y' (by decide) (by decide) (by decide)
  have hZ := key 'Z' 'z' (by decide) (by decide) (by decide)
  simp only [pauliFromChar, pyUpper, if_neg h', if_neg hI, if_neg hX, if_neg hY, if_neg hZ]

/-- The comprehension succeeds on a string of legal letters, and its operators are the letters of the string. -/
theorem paulisFromChars_ok (n : ℕ) (s : List Char) (h : ∀ c ∈ s, charLetter c ≠ none) :
    ∃ ps, paulisFromChars n s = .ok ps ∧ (paulisOps ps).Pairwise (fun a b => a.n < b.n) ∧
      (∀ p k, (⟨p, k⟩ : POp) ∈ paulisOps ps ↔ ∃ i c, k = n + i ∧ s[i]? = some c ∧ charLetter c = some (some p)) := by
  induction s generalizing n with
  | nil => exact ⟨[], rfl, List.Pairwise.nil, by simp [paulisOps]⟩
  | cons c s ih =>
    obtain ⟨ps, h1, h2, h3⟩ := ih (n + 1) (fun d hd => h d (List.mem_cons_of_mem _ hd))
    have shift : ∀ p k, (∃ i d, k = n + i ∧ (c :: s)[i]? = some d ∧ charLetter d = some (some p)) ↔
        (k = n ∧ charLetter c = some (some p)) ∨ (⟨p, k⟩ : POp) ∈ paulisOps ps := by
      intro p k
      rw [h3]
      constructor
      · rintro ⟨i, d, rfl, hd, hp⟩
        cases i with
        | zero => simp at hd; subst hd; exact Or.inl ⟨rfl, hp⟩
        | succ i => exact Or.inr ⟨i, d, by omega, by simpa using hd, hp⟩
      · rintro (⟨rfl, hp⟩ | ⟨i, d, rfl, hd, hp⟩)
        · exact ⟨0, c, rfl, rfl, hp⟩
        · exact ⟨i + 1, d, by omega, by simpa using hd, hp⟩
    obtain ⟨l, hl⟩ := Option.ne_none_iff_exists'.1 (h c (by simp))
    by_cases hc : c = 'I'
    · subst hc
      refine ⟨ps, by simp [paulisFromChars, h1], h2, fun p k => ?_⟩
      rw [shift]
      simp [charLetter]
    · refine ⟨letterPauli n l :: ps, ?_, ?_, fun p k => ?_⟩
      · rw [paulisFromChars, if_pos hc, pauliFromChar_some hl]; simp only [h1]
      · cases l with
        | none => exact h2
        | some p =>
          refine List.Pairwise.cons ?_ h2
          rintro ⟨q, k⟩ hq
          obtain ⟨i, d, rfl, _⟩ := (h3 q k).1 hq
          show n < n + 1 + i
          omega
      · rw [shift]
        cases l with
        | none => rw [hl]; simp [paulisOps, letterPauli]
        | some q =>
          rw [hl]
          simp only [paulisOps, letterPauli, List.mem_cons, POp.mk.injEq, Option.some.injEq]
          constructor
          · rintro (⟨rfl, rfl⟩ | h)
            · exact Or.inl ⟨rfl, rfl⟩
            · exact Or.inr h
          · rintro (⟨rfl, rfl⟩ | h)
            · exact Or.inl ⟨rfl, rfl⟩
            · exact Or.inr h

theorem joinOps_increasing {w : List POp} {o : POp} (h : ∀ x ∈ w, x.n < o.n) : joinOps w [o] = w ++ [o] := by
  induction w using List.reverseRecOn with
  | nil => exact joinOps_nil_left _
  | append_singleton w x _ =>
    rw [joinOps_snoc_cons, if_neg]
    rintro rfl
    exact absurd (h x (by simp)) (lt_irrefl _)

theorem foldl_mulPauli (ps : List Pauli) (t : PTerm)
    (h : (t.ops ++ paulisOps ps).Pairwise (fun a b => a.n < b.n)) :
    ps.foldl PTerm.mulPauli t = ⟨t.ops ++ paulisOps ps, t.coeff⟩ := by
  induction ps generalizing t with
  | nil => simp [paulisOps]
  | cons p ps ih =>
    cases p with
    | I => exact ih t h
    | op o =>
      have hj : joinOps t.ops [o] = t.ops ++ [o] := joinOps_increasing (fun x hx =>
        (List.pairwise_append.1 h).2.2 x hx o (by simp [paulisOps]))
      rw [List.foldl_cons, ih]
      · simp [PTerm.mulPauli, hj, paulisOps]
      · simp only [PTerm.mulPauli, hj, List.append_assoc]; exact h

/-- The product of two Pauli operators on different qubits, in order. -/
theorem pauliMul_increasing (p q : Pauli) (h : (paulisOps [p, q]).Pairwise (fun a b => a.n < b.n)) :
    p.mul q = ⟨paulisOps [p, q], 1⟩ := by
  cases p <;> cases q <;> simp [paulisOps, Pauli.mul, Pauli.toTerm, PTerm.fromPauli] at h ⊢
  case op.op a b =>
    rw [if_neg (by omega), PTerm.fromPauliPair, joinOps_increasing (by simpa using h)]; rfl

theorem paulisOps_append (l m : List Pauli) : paulisOps (l ++ m) = paulisOps l ++ paulisOps m := by
  induction l with
  | nil => rfl
  | cons p l ih => cases p <;> simp [paulisOps, ih]

/-- C41. `Term.from_chars(s)` of a string of the letters X, Y, Z, I in either case is the term with coefficient 1
whose operators are exactly `s[k]` on qubit `k`, in increasing order of the qubits. -/
theorem C41_from_chars (s : List Char) (h : ∀ c ∈ s, charLetter c ≠ none) :
    ∃ t, PTerm.fromChars s = .ok t ∧ t.coeff = 1 ∧ t.ops.Pairwise (fun a b => a.n < b.n) ∧
      ∀ p k, (⟨p, k⟩ : POp) ∈ t.ops ↔ ∃ c, s[k]? = some c ∧ charLetter c = some (some p) := by
  obtain ⟨ps, h1, h2, h3⟩ := paulisFromChars_ok 0 s h
  have h3 : ∀ p k, (⟨p, k⟩ : POp) ∈ paulisOps ps ↔ ∃ c, s[k]? = some c ∧ charLetter c = some (some p) := by
    intro p k; rw [h3]; simp
  refine ⟨⟨paulisOps ps, 1⟩, ?_, rfl, h2, h3⟩
  rw [PTerm.fromChars, h1]
  match ps, h2 with
  | [], _ => rfl
  | [.I], _ => rfl
  | [.op o], _ => simp [PTerm.fromPauli, paulisOps]
  | p :: q :: ps, h2 =>
    have e : paulisOps (p :: q :: ps) = paulisOps [p, q] ++ paulisOps ps := paulisOps_append [p, q] ps
    rw [e] at h2 ⊢
    have hm := pauliMul_increasing p q (List.pairwise_append.1 h2).1
    simp only
    rw [hm, foldl_mulPauli _ _ h2]

/-- C41. `term_from_chars(s)` reads the string from the right: the last character is on qubit 0. -/
theorem C41_term_from_chars (s : List Char) (h : ∀ c ∈ s, charLetter c ≠ none) :
    ∃ t, termFromChars s = .ok t ∧ t.coeff = 1 ∧ t.ops.Pairwise (fun a b => a.n < b.n) ∧
      ∀ p k, (⟨p, k⟩ : POp) ∈ t.ops ↔
        ∃ c, k < s.length ∧ s[s.length - 1 - k]? = some c ∧ charLetter c = some (some p) := by
  obtain ⟨t, h1, h2, h3, h4⟩ := C41_from_chars s.reverse (fun c hc => h c (List.mem_reverse.1 hc))
  refine ⟨t, h1, h2, h3, fun p k => ?_⟩
  rw [h4]
  constructor
  · rintro ⟨c, hc, hp⟩
    have hk : k < s.length := by
      have := (List.getElem?_eq_some_iff.1 hc).1; simpa using this
    rw [List.getElem?_reverse hk] at hc
    exact ⟨c, hk, hc, hp⟩
  · rintro ⟨c, hk, hc, hp⟩
    exact ⟨c, by rw [List.getElem?_reverse hk]; exact hc, hp⟩

/-- C41 (partial). A string with any other character raises ValueError. Missing: the dotless `ı` (U+0131), which is
accepted because `'ı'.upper() == 'I'`, see `C41_dotless_i_refuted`. -/
theorem C41_rejects_partial (s : List Char) (c : Char) (hc : c ∈ s) (h : charLetter c = none)
    (h' : ∀ d ∈ s, d ≠ Char.ofNat 0x131) :
    PTerm.fromChars s = .error .valueError ∧ termFromChars s = .error .valueError := by
  have key : ∀ n (s : List Char), c ∈ s → (∀ d ∈ s, d ≠ Char.ofNat 0x131) →
      paulisFromChars n s = .error .valueError := by
    intro n s hc h'
    induction s generalizing n with
    | nil => simp at hc
    | cons d s ih =>
      by_cases hd : charLetter d = none
      · have : d ≠ 'I' := by rintro rfl; simp [charLetter] at hd
        rw [paulisFromChars, if_pos this, pauliFromChar_none hd (h' d (by simp))]
      · have hcs : c ∈ s := by
          rcases List.mem_cons.1 hc with rfl | hcs
          · exact absurd h hd
          · exact hcs
        have hr := ih (n + 1) hcs (fun e he => h' e (List.mem_cons_of_mem _ he))
        rw [paulisFromChars]
        split_ifs with hI
        · obtain ⟨l, hl⟩ := Option.ne_none_iff_exists'.1 hd
          rw [pauliFromChar_some hl]; simp only [hr]
        · exact hr
  constructor
  · rw [PTerm.fromChars, key 0 s hc h']
  · rw [termFromChars, PTerm.fromChars, key 0 s.reverse (List.mem_reverse.2 hc) (fun d hd => h' d (List.mem_reverse.1 hd))]

/-- C41 is false for `"ı"`: it is none of the letters but denotes the identity. -/
theorem C41_dotless_i_refuted : ∃ s : List Char, (∀ c ∈ s, charLetter c = none) ∧ s ≠ [] ∧
    PTerm.fromChars s = .ok ⟨[], 1⟩ :=
  ⟨[Char.ofNat 0x131], by decide, by simp, rfl⟩

example : ∃ s : List Char, s = ['X', 'i', 'z'] ∧ (∀ c ∈ s, charLetter c ≠ none) := ⟨_, rfl, by decide⟩
example : ∃ s : List Char, 'Q' ∈ s ∧ charLetter 'Q' = none ∧ ∀ d ∈ s, d ≠ Char.ofNat 0x131 :=
  ⟨['X', 'Q'], by decide, by decide, by decide⟩

end Blueqat
