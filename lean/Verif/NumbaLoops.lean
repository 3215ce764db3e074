import Verif.Spec.Parallel
import Verif.NumbaIndex
import Verif.NpArrayLemmas

/-! Lemmas: loops whose iterations touch disjoint array elements. -/

set_option linter.unusedSimpArgs false
set_option linter.unusedVariables false

namespace Blueqat

open Spec

/-- What is left of a thread, run alone. -/
noncomputable def solo (th : Thread) (q : Arr) : Arr := (th.prog.foldl (fun s i => i.exec s) (th.loc, q)).2

/-- Elements a program touches. -/
def Touches (p : List Ins) (a : ℕ) : Prop := ∃ i ∈ p, address i = a

theorem getD_set' (q : Arr) (i j : ℕ) (v : ℂ) :
    (q.set i v).getD j 0 = if i = j ∧ j < q.length then v else q.getD j 0 := by
  by_cases h : i = j
  · subst h
    by_cases hl : i < q.length
    · simp [List.getD_eq_getElem?_getD, List.getElem?_set, hl]
    · simp [List.getD_eq_getElem?_getD, List.getElem?_set, hl]
  · simp [List.getD_eq_getElem?_getD, List.getElem?_set, h]

theorem exec_length (i : Ins) (s : Loc × Arr) : (i.exec s).2.length = s.2.length := by
  cases i <;> simp [Ins.exec]

theorem exec_frame (i : Ins) (s : Loc × Arr) (a : ℕ) (h : address i ≠ a) : (i.exec s).2.getD a 0 = s.2.getD a 0 := by
  cases i with
  | loadT b => rfl
  | loadU b => rfl
  | store b f => simp only [Ins.exec, getD_set']; rw [if_neg (fun h' => h h'.1)]

theorem foldl_length (p : List Ins) (s : Loc × Arr) : (p.foldl (fun s i => i.exec s) s).2.length = s.2.length := by
  induction p generalizing s with
  | nil => rfl
  | cons i p ih => rw [List.foldl_cons, ih, exec_length]

theorem foldl_frame (p : List Ins) (s : Loc × Arr) (a : ℕ) (h : ¬ Touches p a) :
    (p.foldl (fun s i => i.exec s) s).2.getD a 0 = s.2.getD a 0 := by
  induction p generalizing s with
  | nil => rfl
  | cons i p ih =>
    rw [List.foldl_cons, ih _ (fun ⟨j, hj, e⟩ => h ⟨j, by simp [hj], e⟩)]
    exact exec_frame i s a (fun e => h ⟨i, by simp, e⟩)

theorem foldl_congr (p : List Ins) (l : Loc) (q q' : Arr) (hl : q.length = q'.length)
    (h : ∀ a, Touches p a → q.getD a 0 = q'.getD a 0) (a : ℕ) (ha : q.getD a 0 = q'.getD a 0) :
    (p.foldl (fun s i => i.exec s) (l, q)).2.getD a 0 = (p.foldl (fun s i => i.exec s) (l, q')).2.getD a 0 := by
  induction p generalizing l q q' with
  | nil => exact ha
  | cons i p ih =>
    rw [List.foldl_cons, List.foldl_cons]
    have hi := h (address i) ⟨i, by simp, rfl⟩
    have hp : ∀ a, Touches p a → q.getD a 0 = q'.getD a 0 := fun a ⟨j, hj, e⟩ => h a ⟨j, by simp [hj], e⟩
    cases i with
    | loadT b => simp only [Ins.exec, address] at hi ⊢; rw [hi]; exact ih _ _ _ hl hp ha
    | loadU b => simp only [Ins.exec, address] at hi ⊢; rw [hi]; exact ih _ _ _ hl hp ha
    | store b f =>
      simp only [Ins.exec]
      have hset : ∀ a, q.getD a 0 = q'.getD a 0 → (q.set b (f l.t l.u)).getD a 0 = (q'.set b (f l.t l.u)).getD a 0 := by
        intro a ha
        simp only [getD_set', hl, ha]
      exact ih _ _ _ (by simpa using hl) (fun a ha => hset a (hp a ha)) (hset a ha)

/-- `q'` is `q` after each iteration was run alone on its own elements. -/
structure Char (ps : List (List Ins)) (q q' : Arr) : Prop where
  len : q'.length = q.length
  on : ∀ p ∈ ps, ∀ a, Touches p a → q'.getD a 0 = (runIter p q).getD a 0
  off : ∀ a, (∀ p ∈ ps, ¬ Touches p a) → q'.getD a 0 = q.getD a 0

theorem Char.unique {ps : List (List Ins)} {q q' q'' : Arr} (h1 : Char ps q q') (h2 : Char ps q q'') : q' = q'' := by
  apply List.ext_getElem
  · rw [h1.len, h2.len]
  · intro a ha hb
    have : q'.getD a 0 = q''.getD a 0 := by
      by_cases h : ∃ p ∈ ps, Touches p a
      · obtain ⟨p, hp, ht⟩ := h
        rw [h1.on p hp a ht, h2.on p hp a ht]
      · push Not at h
        rw [h1.off a h, h2.off a h]
    rwa [List.getD_eq_getElem _ _ ha, List.getD_eq_getElem _ _ hb] at this

/-- No two iterations touch the same element. -/
def Apart (ps : List (List Ins)) : Prop := ps.Pairwise fun p p' => ∀ a, Touches p a → ¬ Touches p' a

theorem runIters_char (ps : List (List Ins)) (h : Apart ps) (q : Arr) : Char ps q (runIters ps q) := by
  induction ps generalizing q with
  | nil => exact ⟨rfl, by simp, fun a _ => rfl⟩
  | cons p ps ih =>
    rw [Apart, List.pairwise_cons] at h
    have hc := ih h.2 (runIter p q)
    have hl : (runIter p q).length = q.length := foldl_length p _
    refine ⟨hc.len.trans hl, ?_, ?_⟩
    · intro p' hp' a ht
      rcases List.mem_cons.1 hp' with rfl | hp'
      · exact hc.off a (fun p' hp' => h.1 p' hp' a ht)
      · have := hc.on p' hp' a ht
        rw [show runIters (p :: ps) q = runIters ps (runIter p q) from rfl, this]
        have hfr : ∀ b, Touches p' b → (runIter p q).getD b 0 = q.getD b 0 :=
          fun b hb => foldl_frame p _ b (fun hpb => h.1 p' hp' b hpb hb)
        exact foldl_congr p' _ _ _ hl hfr a (hfr a ht)
    · intro a ha
      have := hc.off a (fun p' hp' => ha p' (by simp [hp']))
      rw [show runIters (p :: ps) q = runIters ps (runIter p q) from rfl, this]
      exact foldl_frame p _ a (ha p (by simp))

/-- Invariant of a parallel execution. -/
structure PInv (ps : List (List Ins)) (q0 : Arr) (q : Arr) (ths : List Thread) : Prop where
  len : q.length = q0.length
  cnt : ths.length = ps.length
  sub : ∀ (k : ℕ) th p, ths[k]? = some th → ps[k]? = some p → ∀ a, Touches th.prog a → Touches p a
  on : ∀ (k : ℕ) th p, ths[k]? = some th → ps[k]? = some p → ∀ a, Touches p a →
    (solo th q).getD a 0 = (runIter p q0).getD a 0
  off : ∀ a, (∀ p ∈ ps, ¬ Touches p a) → q.getD a 0 = q0.getD a 0

theorem pinv_start (ps : List (List Ins)) (q : Arr) : PInv ps q q (startThreads ps) := by
  refine ⟨rfl, by simp [startThreads], ?_, ?_, fun _ _ => rfl⟩
  · intro k th p h1 h2 a
    simp only [startThreads, List.getElem?_map, h2, Option.map_some, Option.some.injEq] at h1
    subst h1; exact id
  · intro k th p h1 h2 a _
    simp only [startThreads, List.getElem?_map, h2, Option.map_some, Option.some.injEq] at h1
    subst h1; rfl

theorem apart_get {ps : List (List Ins)} (h : Apart ps) {j k : ℕ} {p p' : List Ins} (hj : ps[j]? = some p)
    (hk : ps[k]? = some p') (hjk : j ≠ k) (a : ℕ) (ht : Touches p a) : ¬ Touches p' a := by
  rw [Apart, List.pairwise_iff_getElem] at h
  obtain ⟨hj1, rfl⟩ := List.getElem?_eq_some_iff.1 hj
  obtain ⟨hk1, rfl⟩ := List.getElem?_eq_some_iff.1 hk
  rcases Nat.lt_or_gt_of_ne hjk with h1 | h1
  · exact h j k hj1 hk1 h1 a ht
  · exact fun h2 => h k j hk1 hj1 h1 a h2 ht

theorem pinv_step {ps : List (List Ins)} (hap : Apart ps) (q0 : Arr) {s s' : Arr × List Thread} (hst : Step s s')
    (h : PInv ps q0 s.1 s.2) : PInv ps q0 s'.1 s'.2 := by
  obtain ⟨q, ths, k, th, i, rest, hk, hp⟩ := hst
  simp only at h ⊢
  have hklt : k < ths.length := (List.getElem?_eq_some_iff.1 hk).1
  obtain ⟨p, hpk⟩ : ∃ p, ps[k]? = some p := ⟨ps[k]'(by rw [← h.cnt]; exact hklt), by simp⟩
  have hi : Touches p (address i) := h.sub k th p hk hpk _ ⟨i, by simp [hp], rfl⟩
  refine ⟨by rw [exec_length]; exact h.len, by simpa using h.cnt, ?_, ?_, ?_⟩
  · intro j th' p' h1 h2 a ht
    rw [List.getElem?_set] at h1
    by_cases hjk : k = j
    · subst hjk
      simp only [if_true, hklt, Option.some.injEq] at h1
      subst h1
      obtain ⟨x, hx, e⟩ := ht
      exact h.sub k th p' hk h2 a ⟨x, by simp only [hp]; exact List.mem_cons_of_mem _ hx, e⟩
    · rw [if_neg hjk] at h1
      exact h.sub j th' p' h1 h2 a ht
  · intro j th' p' h1 h2 a ht
    rw [List.getElem?_set] at h1
    by_cases hjk : k = j
    · subst hjk
      simp only [if_true, hklt, Option.some.injEq] at h1
      subst h1
      rw [← h.on k th p' hk h2 a ht]
      simp only [solo, hp, List.foldl_cons]
    · rw [if_neg hjk] at h1
      rw [← h.on j th' p' h1 h2 a ht]
      have hfr : ∀ b, Touches p' b → (i.exec (th.loc, q)).2.getD b 0 = q.getD b 0 := by
        intro b hb
        apply exec_frame
        rintro rfl
        exact apart_get hap hpk h2 hjk _ hi hb
      exact foldl_congr _ _ _ _ (exec_length _ _) (fun b hb => hfr b (h.sub j th' p' h1 h2 b hb)) a (hfr a ht)
  · intro a ha
    rw [exec_frame]
    · exact h.off a ha
    · rintro rfl
      exact ha p (List.mem_of_getElem? hpk) hi

/-- Every schedule of iterations that touch disjoint elements gives the sequential result. -/
theorem parallel_eq (ps : List (List Ins)) (hap : Apart ps) (q q' : Arr) (h : ParallelRun ps q q') :
    q' = runIters ps q := by
  obtain ⟨ths, hr, hd⟩ := h
  have hinv : ∀ s, Relation.ReflTransGen Step (q, startThreads ps) s → PInv ps q s.1 s.2 := by
    intro s hs
    induction hs with
    | refl => exact pinv_start ps q
    | tail _ hst ih => exact pinv_step hap q hst ih
  have hI := hinv _ hr
  refine Char.unique (ps := ps) (q := q) ⟨hI.len, ?_, hI.off⟩ (runIters_char ps hap q)
  intro p hp a ht
  obtain ⟨k, hk, rfl⟩ := List.getElem_of_mem hp
  have hkt : k < ths.length := by rw [hI.cnt]; exact hk
  have h1 : ths[k]? = some ths[k] := by simp
  rw [← hI.on k ths[k] ps[k] h1 (by simp) a ht]
  simp only [solo, hd ths[k] (List.getElem_mem hkt), List.foldl_nil]

/-- The sequential execution is a schedule. -/
theorem parallel_exists (ps : List (List Ins)) (q : Arr) : ParallelRun ps q (runIters ps q) := by
  have key : ∀ (p : List Ins) (pre post : List Thread) (l : Loc) (q : Arr),
      ∃ l', Relation.ReflTransGen Step (q, pre ++ ⟨p, l⟩ :: post)
        ((p.foldl (fun s i => i.exec s) (l, q)).2, pre ++ ⟨[], l'⟩ :: post) := by
    intro p pre post
    induction p with
    | nil => intro l q; exact ⟨l, .refl⟩
    | cons i p ih =>
      intro l q
      obtain ⟨l', hl'⟩ := ih (i.exec (l, q)).1 (i.exec (l, q)).2
      refine ⟨l', .head ?_ hl'⟩
      have := Step.mk q (pre ++ ⟨i :: p, l⟩ :: post) pre.length ⟨i :: p, l⟩ i p (by simp) rfl
      simpa using this
  have all : ∀ (ps : List (List Ins)) (pre : List Thread) (q : Arr), Done pre →
      ∃ ths, Relation.ReflTransGen Step (q, pre ++ startThreads ps) (runIters ps q, ths) ∧ Done ths := by
    intro ps
    induction ps with
    | nil => intro pre q hd; exact ⟨pre, by simpa [startThreads, runIters] using .refl, hd⟩
    | cons p ps ih =>
      intro pre q hd
      obtain ⟨l', h1⟩ := key p pre (startThreads ps) ⟨0, 0⟩ q
      obtain ⟨ths, h2, h3⟩ := ih (pre ++ [⟨[], l'⟩]) (runIter p q) (by
        intro th hth
        rcases List.mem_append.1 hth with h | h
        · exact hd th h
        · simp at h; subst h; rfl)
      refine ⟨ths, ?_, h3⟩
      have h1' : Relation.ReflTransGen Step (q, pre ++ startThreads (p :: ps))
        (runIter p q, pre ++ [⟨[], l'⟩] ++ startThreads ps) := by simpa [startThreads, runIter] using h1
      exact h1'.trans h2
  obtain ⟨ths, h1, h2⟩ := all ps [] q (by simp [Done])
  exact ⟨ths, by simpa using h1, h2⟩

end Blueqat
