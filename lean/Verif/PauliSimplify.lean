import Verif.PauliReduced

/-!
# Lemmas about `Term.simplify` and `Expr.simplify`
-/

set_option linter.unusedSimpArgs false
set_option linter.unusedVariables false

namespace Blueqat

open Spec

theorem castReal_eq (z : ℂ) : castReal z = z := by
  rw [castReal]; split_ifs with h
  · exact Complex.ext (by simp) (by simp [h])
  · rfl

/-- The operator of a letter or the identity on qubit `n`. -/
noncomputable def optOp (o : Option PLetter) (n : ℕ) : Operator :=
  match o with
  | none => 1
  | some p => opOp ⟨p, n⟩

theorem matAt_smul' (z : ℂ) (M N : M2) (n : ℕ) (h : N = ⟨z * M.a, z * M.b, z * M.c, z * M.d⟩) :
    matAt N n = z • matAt M n := by rw [h, matAt_smul]

theorem mulMap_op (a b : PLetter) (n : ℕ) :
    opOp ⟨a, n⟩ * opOp ⟨b, n⟩ = (mulMap a b).1 • optOp (mulMap a b).2 n := by
  cases a <;> cases b <;> simp only [opOp, letterM, matAt_mul, mulMap, optOp, mX_mX, mY_mY, mZ_mZ, matAt_one, one_smul]
  all_goals
    apply matAt_smul'
    ext <;> simp [mX, mY, mZ, M2.mul_def]

theorem simplifyMul_op (a b : Option PLetter) (n : ℕ) :
    optOp a n * optOp b n = (simplifyMul a b).1 • optOp (simplifyMul a b).2 n := by
  cases a <;> cases b <;> simp [simplifyMul, optOp]
  exact mulMap_op _ _ n

theorem simplifyQubit_op (l : List PLetter) (n : ℕ) :
    wordOp (l.map (fun p => ⟨p, n⟩)) = (simplifyQubit l).1 • optOp (simplifyQubit l).2 n := by
  cases l with
  | nil => simp [simplifyQubit, wordOp_nil, optOp]
  | cons p ps =>
    rw [List.map_cons, wordOp_cons, simplifyQubit]
    have : ∀ (ps : List PLetter) (s : ℂ × Option PLetter),
        (s.1 • optOp s.2 n) * wordOp (ps.map (fun p => ⟨p, n⟩)) =
        (ps.foldl (fun (s : ℂ × Option PLetter) q =>
          let r := simplifyMul s.2 (some q)
          (s.1 * r.1, r.2)) s).1 • optOp (ps.foldl (fun (s : ℂ × Option PLetter) q =>
          let r := simplifyMul s.2 (some q)
          (s.1 * r.1, r.2)) s).2 n := by
      intro ps
      induction ps with
      | nil => intro s; simp [wordOp_nil]
      | cons q ps ih =>
        intro s
        rw [List.foldl_cons, ← ih, List.map_cons, wordOp_cons, ← mul_assoc, smul_mul_assoc]
        have := simplifyMul_op s.2 (some q) n
        rw [optOp.eq_2] at this
        rw [this, smul_smul]
    rw [← this ps (1, some p)]; simp [optOp]

theorem simplifyBefore_foldl (ops : List POp) : ∀ d : PyDict ℕ (List PLetter), d.WF →
    (ops.foldl (fun d o => d.set o.n ((d.get o.n).getD [] ++ [o.p])) d).WF ∧
    (∀ n, ((ops.foldl (fun d o => d.set o.n ((d.get o.n).getD [] ++ [o.p])) d).get n).getD [] =
      (d.get n).getD [] ++ (ops.filter (fun o => o.n = n)).map POp.p) ∧
    (∀ n, n ∈ (ops.foldl (fun d o => d.set o.n ((d.get o.n).getD [] ++ [o.p])) d).map Prod.fst ↔
      n ∈ d.map Prod.fst ∨ n ∈ ops.map POp.n) := by
  induction ops with
  | nil => intro d h; simp [h]
  | cons o ops ih =>
    intro d h
    obtain ⟨h1, h2, h3⟩ := ih _ (PyDict.wf_set h o.n ((d.get o.n).getD [] ++ [o.p]))
    rw [List.foldl_cons]
    refine ⟨h1, ?_, ?_⟩
    · intro n
      rw [h2, PyDict.get_set]
      by_cases hn : n = o.n
      · subst hn; simp
      · simp [hn, Ne.symm hn]
    · intro n
      rw [h3, PyDict.mem_map_fst_set]; simp only [List.map_cons, List.mem_cons]; tauto

theorem simplifyBefore_get (ops : List POp) (n : ℕ) :
    ((simplifyBefore ops).get n).getD [] = (ops.filter (fun o => o.n = n)).map POp.p := by
  rw [simplifyBefore, (simplifyBefore_foldl ops [] (by simp [PyDict.WF])).2.1]; simp [PyDict.get]

theorem simplifyBefore_wf (ops : List POp) : (simplifyBefore ops).WF :=
  (simplifyBefore_foldl ops [] (by simp [PyDict.WF])).1

theorem simplifyBefore_keys (ops : List POp) (n : ℕ) :
    n ∈ (simplifyBefore ops).map Prod.fst ↔ n ∈ ops.map POp.n := by
  rw [simplifyBefore, (simplifyBefore_foldl ops [] (by simp [PyDict.WF])).2.2]; simp

/-- The part of a word on one qubit can be moved to the front. -/
theorem wordOp_split (ops : List POp) (n : ℕ) :
    wordOp ops = wordOp (ops.filter (fun o => o.n = n)) * wordOp (ops.filter (fun o => o.n ≠ n)) := by
  induction ops with
  | nil => simp [wordOp_nil]
  | cons o ops ih =>
    by_cases h : o.n = n
    · simp only [List.filter_cons, h, decide_true, if_true, ne_eq, not_true, decide_false, Bool.false_eq_true, if_false,
        wordOp_cons] at ih ⊢
      rw [ih, mul_assoc]
    · simp only [List.filter_cons, h, decide_true, if_true, ne_eq, not_false_iff, decide_false, Bool.false_eq_true,
        if_false, wordOp_cons] at ih ⊢
      rw [ih]
      have : Commute (opOp o) (wordOp (ops.filter (fun o => o.n = n))) := by
        rw [wordOp]
        refine Commute.list_prod_right _ _ ?_
        intro x hx
        obtain ⟨p, hp, rfl⟩ := List.mem_map.1 hx
        have hp := List.of_mem_filter hp
        simp only [decide_eq_true_eq] at hp
        exact opOp_comm (by rw [hp]; exact h)
      rw [← mul_assoc, ← mul_assoc, this.eq]

theorem map_filter_letters (ops : List POp) (n : ℕ) :
    ((ops.filter (fun o => o.n = n)).map POp.p).map (fun p => (⟨p, n⟩ : POp)) = ops.filter (fun o => o.n = n) := by
  rw [List.map_map]
  conv_rhs => rw [← List.map_id (ops.filter (fun o => o.n = n))]
  apply List.map_congr_left
  intro o ho
  have := List.of_mem_filter ho
  simp only [decide_eq_true_eq] at this
  subst this; rfl

theorem simplifyLoop_op (ops : List POp) : ∀ (ns : List ℕ) (rest : List POp) (c : ℂ) (acc : List POp), ns.Nodup →
    (∀ o ∈ rest, o.n ∈ ns) → (∀ n ∈ ns, rest.filter (fun o => o.n = n) = ops.filter (fun o => o.n = n)) →
    (simplifyLoop (simplifyBefore ops) ns (c, acc)).1 • wordOp (simplifyLoop (simplifyBefore ops) ns (c, acc)).2 =
      c • (wordOp acc * wordOp rest)
  | [], rest, c, acc, _, hr, _ => by
    have : rest = [] := by
      cases rest with
      | nil => rfl
      | cons o r => exact absurd (hr o (by simp)) (by simp)
    simp [simplifyLoop, this, wordOp_nil]
  | n :: ns, rest, c, acc, hn, hr, hf => by
    rw [List.nodup_cons] at hn
    rw [simplifyLoop]
    rw [simplifyLoop_op ops ns (rest.filter (fun o => o.n ≠ n)) _ _ hn.2]
    · rw [castReal_eq, wordOp_split rest n, hf n (by simp), ← map_filter_letters, simplifyQubit_op,
        ← simplifyBefore_get]
      rcases hs : (simplifyQubit (((simplifyBefore ops).get n).getD [])).2 with _ | p
      · simp only [optOp, smul_mul_assoc, mul_smul_comm, one_mul, smul_smul]
      · simp only [optOp, wordOp_append, wordOp_singleton, smul_mul_assoc, mul_smul_comm, smul_smul, mul_assoc]
    · intro o ho
      have h1 := List.of_mem_filter ho
      simp only [ne_eq, decide_not, Bool.not_eq_true', decide_eq_false_iff_not] at h1
      have := hr o (List.mem_of_mem_filter ho)
      rcases List.mem_cons.1 this with h | h
      · exact absurd h h1
      · exact h
    · intro m hm
      rw [← hf m (List.mem_cons_of_mem _ hm), List.filter_filter]
      apply List.filter_congr
      intro o _
      have : m ≠ n := by rintro rfl; exact hn.1 hm
      by_cases h : o.n = m
      · simp [h, this]
      · simp [h]

theorem pySorted_perm (l : List ℕ) : (pySorted l).Perm l := List.mergeSort_perm _ _

theorem pySorted_sorted (l : List ℕ) : (pySorted l).Pairwise (· ≤ ·) := by
  have := List.pairwise_mergeSort (le := fun a b : ℕ => decide (a ≤ b))
    (fun a b c h1 h2 => by simp at *; omega) (fun a b => by simp; omega) l
  simpa [pySorted] using this

theorem simplify_op (t : PTerm) : termOp t.simplify = termOp t := by
  have hwf := simplifyBefore_wf t.ops
  rw [PTerm.simplify, termOp, simplifyLoop_op t.ops _ t.ops t.coeff [], termOp, wordOp_nil, one_mul]
  · exact (pySorted_perm _).nodup_iff.2 hwf
  · intro o ho
    rw [(pySorted_perm _).mem_iff, simplifyBefore_keys]
    exact List.mem_map_of_mem ho
  · intro _ _; rfl

theorem simplifyLoop_sublist (d : PyDict ℕ (List PLetter)) : ∀ (ns : List ℕ) (c : ℂ) (acc : List POp),
    ∃ l, (simplifyLoop d ns (c, acc)).2 = acc ++ l ∧ (l.map POp.n).Sublist ns
  | [], c, acc => ⟨[], by simp [simplifyLoop], by simp⟩
  | n :: ns, c, acc => by
    rw [simplifyLoop]
    rcases hs : (simplifyQubit ((d.get n).getD [])).2 with _ | p
    · obtain ⟨l, h1, h2⟩ := simplifyLoop_sublist d ns (castReal (c * (simplifyQubit ((d.get n).getD [])).1)) acc
      exact ⟨l, h1, h2.trans (List.sublist_cons_self _ _)⟩
    · obtain ⟨l, h1, h2⟩ := simplifyLoop_sublist d ns (castReal (c * (simplifyQubit ((d.get n).getD [])).1))
        (acc ++ [⟨p, n⟩])
      exact ⟨⟨p, n⟩ :: l, by rw [h1]; simp, by simpa using h2⟩

/-- The qubits of the operators increase strictly. -/
def NormalWord (ops : List POp) : Prop := ops.Pairwise (fun a b => a.n < b.n)

theorem simplify_normal (t : PTerm) : NormalWord t.simplify.ops := by
  obtain ⟨l, h1, h2⟩ := simplifyLoop_sublist (simplifyBefore t.ops)
    (pySorted ((simplifyBefore t.ops).map Prod.fst)) t.coeff []
  rw [PTerm.simplify]
  rw [h1, List.nil_append, NormalWord]
  have hs : (pySorted ((simplifyBefore t.ops).map Prod.fst)).Pairwise (· < ·) := by
    have hn : (pySorted ((simplifyBefore t.ops).map Prod.fst)).Nodup :=
      (pySorted_perm _).nodup_iff.2 (simplifyBefore_wf t.ops)
    have := (pySorted_sorted ((simplifyBefore t.ops).map Prod.fst)).and hn
    exact this.imp (fun ⟨h1, h2⟩ => lt_of_le_of_ne h1 h2)
  exact List.pairwise_map.1 (hs.sublist h2)

theorem PyDict.set_of_not_mem {α β : Type} [DecidableEq α] {d : PyDict α β} {k : α} (h : k ∉ d.map Prod.fst) (v : β) :
    d.set k v = d ++ [(k, v)] := by
  induction d with
  | nil => rfl
  | cons p d ih =>
    obtain ⟨k', v'⟩ := p
    rw [List.map_cons, List.mem_cons, not_or] at h
    rw [PyDict.set, if_neg (Ne.symm h.1), ih h.2]; rfl

theorem before_of_normal (ops : List POp) : ∀ d : PyDict ℕ (List PLetter), NormalWord ops →
    (∀ o ∈ ops, o.n ∉ d.map Prod.fst) →
    ops.foldl (fun d o => d.set o.n ((d.get o.n).getD [] ++ [o.p])) d = d ++ ops.map (fun o => (o.n, [o.p])) := by
  induction ops with
  | nil => intro d _ _; simp
  | cons o ops ih =>
    intro d hn hd
    have hset : d.set o.n ((d.get o.n).getD [] ++ [o.p]) = d ++ [(o.n, [o.p])] := by
      rw [PyDict.get_eq_none.2 (hd o (by simp)), PyDict.set_of_not_mem (hd o (by simp))]; rfl
    rw [List.foldl_cons, hset, ih]
    · simp
    · exact (List.pairwise_cons.1 hn).2
    · intro o' ho'
      rw [List.map_append, List.mem_append, not_or]
      refine ⟨hd o' (List.mem_cons_of_mem _ ho'), ?_⟩
      have := (List.pairwise_cons.1 hn).1 o' ho'
      simp; omega

theorem simplifyLoop_normal (ops : List POp) (hn : NormalWord ops) : ∀ (l : List POp) (c : ℂ) (acc : List POp),
    (∀ o ∈ l, o ∈ ops) → simplifyLoop (simplifyBefore ops) (l.map POp.n) (c, acc) = (c, acc ++ l)
  | [], c, acc, _ => by simp [simplifyLoop]
  | o :: l, c, acc, h => by
    rw [List.map_cons, simplifyLoop]
    have ho : ops.filter (fun x => x.n = o.n) = [o] := by
      have hmem := h o (by simp)
      clear h
      induction ops with
      | nil => simp at hmem
      | cons x ops ih =>
        have hx := List.pairwise_cons.1 hn
        rcases List.mem_cons.1 hmem with rfl | hm
        · rw [List.filter_cons, if_pos (by simp)]
          congr 1
          rw [List.filter_eq_nil_iff]
          intro y hy; have := hx.1 y hy; simp; omega
        · have := hx.1 o hm
          rw [List.filter_cons, if_neg (by simp; omega)]
          exact ih hx.2 hm
    rw [simplifyBefore_get, ho]
    simp only [List.map_cons, List.map_nil, simplifyQubit, List.foldl_nil, mul_one, castReal_eq]
    rw [simplifyLoop_normal ops hn l c _ (fun x hx => h x (List.mem_cons_of_mem _ hx))]
    simp

theorem simplify_of_normal (t : PTerm) (h : NormalWord t.ops) : t.simplify = t := by
  have hb : simplifyBefore t.ops = t.ops.map (fun o => (o.n, [o.p])) := by
    rw [simplifyBefore, before_of_normal t.ops [] h (by simp)]; simp
  have hs : pySorted ((simplifyBefore t.ops).map Prod.fst) = t.ops.map POp.n := by
    rw [hb, List.map_map]
    have : (t.ops.map (Prod.fst ∘ fun o : POp => (o.n, [o.p]))) = t.ops.map POp.n := rfl
    rw [this, pySorted]
    apply List.mergeSort_of_pairwise
    rw [List.pairwise_map]
    exact h.imp (fun h => by simp; omega)
  rw [PTerm.simplify, hs]
  rw [simplifyLoop_normal t.ops h t.ops t.coeff [] (fun _ h => h)]; rfl

end Blueqat
