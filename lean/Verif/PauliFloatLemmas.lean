import Verif.Spec.PauliFloat
import Verif.PauliMatrixRefine
import Verif.PauliCommute
import Verif.VqeFloatLemmas

/-!
# Lemmas: `simplify` and `to_matrix` in rounded arithmetic beside the exact ones
-/

set_option linter.unusedSimpArgs false
set_option linter.unusedVariables false

namespace Blueqat

open Spec

noncomputable section

/-! ## Relative errors -/

/-- `a` is `b` up to `k` relative errors of `δ`. -/
def Close (δ : ℝ) (k : ℕ) (a b : ℂ) : Prop := ‖a - b‖ ≤ ((1 + δ) ^ k - 1) * ‖b‖

theorem Close.refl (δ : ℝ) (a : ℂ) : Close δ 0 a a := by simp [Close]

theorem Close.mono {δ : ℝ} (hδ : 0 ≤ δ) {k m : ℕ} (h : k ≤ m) {a b : ℂ} (hc : Close δ k a b) : Close δ m a b :=
  hc.trans (powErr_mono hδ h (norm_nonneg _))

theorem Close.norm {δ : ℝ} {k : ℕ} {a b : ℂ} (hc : Close δ k a b) : ‖a‖ ≤ (1 + δ) ^ k * ‖b‖ := by
  have : a = (a - b) + b := by ring
  rw [this]
  refine (norm_add_le _ _).trans ?_
  rw [Close] at hc
  linarith

theorem close_mul_real {X Y B D x y c m r δ : ℝ} (hδ : 0 ≤ δ) (hX : 1 ≤ X) (hB : 0 ≤ B) (hD : 0 ≤ D)
    (hx : x ≤ (X - 1) * B) (hy : y ≤ (Y - 1) * D) (hc0 : 0 ≤ c) (hc : c ≤ Y * D) (hm : m ≤ x * c + B * y)
    (hr : r ≤ δ * (m + B * D)) : r + m ≤ (X * Y * (1 + δ) - 1) * (B * D) := by
  have h1 : x * c ≤ (X - 1) * B * (Y * D) :=
    (mul_le_mul_of_nonneg_right hx hc0).trans (mul_le_mul_of_nonneg_left hc (mul_nonneg (by linarith) hB))
  have h2 : B * y ≤ B * ((Y - 1) * D) := mul_le_mul_of_nonneg_left hy hB
  have h3 : m ≤ (X * Y - 1) * (B * D) := by nlinarith
  have h4 : δ * (m + B * D) ≤ δ * ((X * Y - 1) * (B * D) + B * D) := mul_le_mul_of_nonneg_left (by linarith) hδ
  nlinarith

theorem Close.mul {P : PauliOps} {δ : ℝ} (hP : PauliAccurate P δ) (hδ : 0 ≤ δ) {k l : ℕ} {a b c d : ℂ}
    (h1 : Close δ k a b) (h2 : Close δ l c d) : Close δ (k + l + 1) (P.mul a c) (b * d) := by
  have e1 : P.mul a c - b * d = (P.mul a c - a * c) + (a * c - b * d) := by ring
  have e2 : a * c - b * d = (a - b) * c + b * (c - d) := by ring
  have hm : ‖a * c - b * d‖ ≤ ‖a - b‖ * ‖c‖ + ‖b‖ * ‖c - d‖ := by
    rw [e2]; exact (norm_add_le _ _).trans (by rw [norm_mul, norm_mul])
  have hr : ‖P.mul a c - a * c‖ ≤ δ * (‖a * c - b * d‖ + ‖b‖ * ‖d‖) := by
    refine (hP.mul a c).trans (mul_le_mul_of_nonneg_left ?_ hδ)
    have : a * c = (a * c - b * d) + b * d := by ring
    rw [this]; refine (norm_add_le _ _).trans ?_
    rw [norm_mul b d, ← this]
  have := close_mul_real hδ (one_le_pow₀ (show (1 : ℝ) ≤ 1 + δ by linarith) (n := k)) (norm_nonneg b) (norm_nonneg d)
    h1 h2 (norm_nonneg c) h2.norm hm hr
  rw [Close, e1, norm_mul, pow_succ, pow_add]
  exact (norm_add_le _ _).trans this

/-! ## simplify -/

theorem flSimplifyQubit_near {P : PauliOps} {δ : ℝ} (hP : PauliAccurate P δ) (hδ : 0 ≤ δ) (l : List PLetter) :
    (flSimplifyQubit P l).2 = (simplifyQubit l).2 ∧ Close δ (l.length - 1) (flSimplifyQubit P l).1 (simplifyQubit l).1 := by
  cases l with
  | nil => exact ⟨rfl, Close.refl _ _⟩
  | cons p ps =>
    have : ∀ (ps : List PLetter) (s s' : ℂ × Option PLetter) (k : ℕ), s.2 = s'.2 → Close δ k s.1 s'.1 →
        (ps.foldl (fun (s : ℂ × Option PLetter) q => let r := simplifyMul s.2 (some q); (P.mul s.1 r.1, r.2)) s).2 =
        (ps.foldl (fun (s : ℂ × Option PLetter) q => let r := simplifyMul s.2 (some q); (s.1 * r.1, r.2)) s').2 ∧
        Close δ (k + ps.length)
          (ps.foldl (fun (s : ℂ × Option PLetter) q => let r := simplifyMul s.2 (some q); (P.mul s.1 r.1, r.2)) s).1
          (ps.foldl (fun (s : ℂ × Option PLetter) q => let r := simplifyMul s.2 (some q); (s.1 * r.1, r.2)) s').1 := by
      intro ps
      induction ps with
      | nil => intro s s' k h1 h2; exact ⟨h1, h2⟩
      | cons q ps ih =>
        intro s s' k h1 h2
        simp only [List.foldl_cons, List.length_cons]
        have := ih (P.mul s.1 (simplifyMul s.2 (some q)).1, (simplifyMul s.2 (some q)).2)
          (s'.1 * (simplifyMul s'.2 (some q)).1, (simplifyMul s'.2 (some q)).2) (k + 1) (by rw [h1])
          (by rw [h1]; exact h2.mul hP hδ (Close.refl δ _))
        rw [show k + (ps.length + 1) = k + 1 + ps.length by omega]
        exact this
    have h := this ps (1, some p) (1, some p) 0 rfl (Close.refl _ _)
    simpa [flSimplifyQubit, simplifyQubit] using h

theorem flSimplifyLoop_near {P : PauliOps} {δ : ℝ} (hP : PauliAccurate P δ) (hδ : 0 ≤ δ)
    (before : PyDict ℕ (List PLetter)) : ∀ (ns : List ℕ) (c c' : ℂ) (ops : List POp) (k : ℕ), Close δ k c c' →
    (∀ n ∈ ns, (before.get n).getD [] ≠ []) →
    (flSimplifyLoop P before ns (c, ops)).2 = (simplifyLoop before ns (c', ops)).2 ∧
    Close δ (k + (ns.map (fun n => ((before.get n).getD []).length)).sum) (flSimplifyLoop P before ns (c, ops)).1
      (simplifyLoop before ns (c', ops)).1 := by
  intro ns
  induction ns with
  | nil => intro c c' ops k h _; exact ⟨rfl, h⟩
  | cons n ns ih =>
    intro c c' ops k h hne
    obtain ⟨h1, h2⟩ := flSimplifyQubit_near hP hδ ((before.get n).getD [])
    simp only [flSimplifyLoop, simplifyLoop, List.map_cons, List.sum_cons, castReal_eq]
    have hlen : 0 < ((before.get n).getD []).length := List.length_pos_iff.2 (hne n (by simp))
    have := ih (P.mul c (flSimplifyQubit P ((before.get n).getD [])).1) (c' * (simplifyQubit ((before.get n).getD [])).1)
      (match (simplifyQubit ((before.get n).getD [])).2 with | none => ops | some p => ops ++ [⟨p, n⟩])
      (k + ((before.get n).getD []).length) ((h.mul hP hδ h2).mono hδ (by omega)) (fun m hm => hne m (by simp [hm]))
    rw [h1, ← add_assoc]
    exact this

theorem sum_filter_lengths {α : Type} (f : α → ℕ) : ∀ (ns : List ℕ) (l : List α), ns.Nodup →
    (ns.map (fun n => (l.filter (fun o => f o = n)).length)).sum ≤ l.length := by
  intro ns
  induction ns with
  | nil => simp
  | cons n ns ih =>
    intro l hn
    rw [List.nodup_cons] at hn
    have h1 := ih (l.filter (fun o => f o ≠ n)) hn.2
    have h2 : ∀ m ∈ ns, (l.filter (fun o => f o ≠ n)).filter (fun o => f o = m) = l.filter (fun o => f o = m) := by
      intro m hm
      rw [List.filter_filter]
      apply List.filter_congr
      intro o _
      have : m ≠ n := fun h => hn.1 (h ▸ hm)
      by_cases ho : f o = m
      · simp [ho, this]
      · simp [ho]
    have h3 : (l.filter (fun o => f o = n)).length + (l.filter (fun o => f o ≠ n)).length = l.length := by
      clear h1 h2
      induction l with
      | nil => rfl
      | cons o l ih' =>
        by_cases ho : f o = n <;> simp [ho] at ih' ⊢ <;> omega
    rw [List.map_cons, List.sum_cons]
    have h4 : (ns.map (fun m => (l.filter (fun o => f o = m)).length)) =
        ns.map (fun m => ((l.filter (fun o => f o ≠ n)).filter (fun o => f o = m)).length) :=
      List.map_congr_left fun m hm => by rw [h2 m hm]
    rw [h4]
    omega

/-- Simplified terms have the same operators; the coefficient has gone through at most as many multiplications as the term
has letters. -/
theorem flTermSimplify_near {P : PauliOps} {δ : ℝ} (hP : PauliAccurate P δ) (hδ : 0 ≤ δ) (t : PTerm) :
    (t.flSimplify P).ops = t.simplify.ops ∧ Close δ t.ops.length (t.flSimplify P).coeff t.simplify.coeff := by
  have hkeys : ∀ n ∈ pySorted ((simplifyBefore t.ops).map Prod.fst), ((simplifyBefore t.ops).get n).getD [] ≠ [] := by
    intro n hn
    have hn' : n ∈ t.ops.map POp.n := by
      rw [← simplifyBefore_keys]
      exact (List.mergeSort_perm _ _).mem_iff.1 hn
    obtain ⟨o, ho, rfl⟩ := List.mem_map.1 hn'
    rw [simplifyBefore_get]
    intro h
    have : o ∈ t.ops.filter (fun p => p.n = o.n) := by simp [ho]
    have h' := List.map_eq_nil_iff.1 h
    rw [h'] at this
    simp at this
  have hnd : (pySorted ((simplifyBefore t.ops).map Prod.fst)).Nodup :=
    (List.mergeSort_perm _ _).nodup_iff.2 (simplifyBefore_wf t.ops)
  obtain ⟨h1, h2⟩ := flSimplifyLoop_near hP hδ (simplifyBefore t.ops) (pySorted ((simplifyBefore t.ops).map Prod.fst))
    t.coeff t.coeff [] 0 (Close.refl _ _) hkeys
  refine ⟨h1, h2.mono hδ ?_⟩
  rw [zero_add]
  simp only [simplifyBefore_get, List.length_map]
  exact sum_filter_lengths POp.n _ t.ops hnd

/-- The sum of the absolute values of the coefficients of the terms that are multiples of the word `w`. -/
def wordSize (ts : List PTerm) (w : List POp) : ℝ :=
  (ts.map (fun t => if t.simplify.ops = w then ‖t.coeff‖ else 0)).sum

theorem wordSize_nonneg (ts : List PTerm) (w : List POp) : 0 ≤ wordSize ts w := by
  refine List.sum_nonneg fun x hx => ?_
  obtain ⟨t, -, rfl⟩ := List.mem_map.1 hx
  split_ifs <;> simp

/-- The dictionary of `Expr.simplify`. -/
theorem flSimplifyDict_near {P : PauliOps} {δ : ℝ} (hP : PauliAccurate P δ) (hδ : 0 ≤ δ) (L : ℕ) :
    ∀ (ts done : List PTerm) (d d' : PyDict (List POp) ℂ), (∀ t ∈ ts, t.ops.length ≤ L) →
    d.map Prod.fst = d'.map Prod.fst →
    (∀ w, ‖coef d' w‖ ≤ wordSize done w ∧ ‖coef d w - coef d' w‖ ≤ ((1 + δ) ^ (L + done.length) - 1) * wordSize done w) →
    ((ts.map (PTerm.flSimplify P)).foldl (flDictAdd P) d).map Prod.fst = ((ts.map PTerm.simplify).foldl dictAdd d').map Prod.fst ∧
    ∀ w, ‖coef ((ts.map PTerm.simplify).foldl dictAdd d') w‖ ≤ wordSize (done ++ ts) w ∧
      ‖coef ((ts.map (PTerm.flSimplify P)).foldl (flDictAdd P) d) w - coef ((ts.map PTerm.simplify).foldl dictAdd d') w‖ ≤
      ((1 + δ) ^ (L + (done.length + ts.length)) - 1) * wordSize (done ++ ts) w := by
  intro ts
  induction ts with
  | nil => intro done d d' _ h1 h2; exact ⟨h1, fun w => by simpa using h2 w⟩
  | cons t ts ih =>
    intro done d d' hL h1 h2
    obtain ⟨e1, e2⟩ := flTermSimplify_near hP hδ t
    have hmem : ∀ (k : List POp) x y, (d.set k x).map Prod.fst = (d'.set k y).map Prod.fst := by
      intro k x y
      clear ih h2 hL
      induction d generalizing d' with
      | nil => cases d' with
        | nil => rfl
        | cons a d' => simp at h1
      | cons a d ihd => cases d' with
        | nil => simp at h1
        | cons b d' =>
          simp only [List.map_cons, List.cons.injEq] at h1
          obtain ⟨a1, a2⟩ := a
          obtain ⟨b1, b2⟩ := b
          simp only at h1
          simp only [PyDict.set, h1.1]
          split_ifs
          · simp [h1.2]
          · simp [ihd d' h1.2]
    have := ih (done ++ [t]) (flDictAdd P d (t.flSimplify P)) (dictAdd d' t.simplify) (fun s hs => hL s (by simp [hs]))
      (by rw [flDictAdd, dictAdd, e1]; exact hmem _ _ _) ?_
    · simp only [List.map_cons, List.foldl_cons, List.length_cons]
      simp only [List.length_append, List.length_cons, List.length_nil, List.append_assoc, List.cons_append,
        List.nil_append] at this
      rw [show done.length + (ts.length + 1) = done.length + (0 + 1) + ts.length by omega]
      exact this
    · intro w
      have hw : wordSize (done ++ [t]) w = wordSize done w + (if t.simplify.ops = w then ‖t.coeff‖ else 0) := by
        simp [wordSize]
      rw [hw, List.length_append, List.length_singleton, ← add_assoc]
      obtain ⟨g1, g2⟩ := h2 w
      simp only [coef, flDictAdd, dictAdd, e1, PyDict.get_set]
      by_cases h : w = t.simplify.ops
      · subst h
        simp only [if_true, Option.getD_some]
        refine ⟨(norm_add_le _ _).trans ?_, ?_⟩
        · rw [simplify_norm]; exact add_le_add g1 le_rfl
        · refine relErr_step hδ g1 (simplify_norm t).le g2 ?_ (hP.add _ _)
          have hc : Close δ (L + done.length) (t.flSimplify P).coeff t.simplify.coeff :=
            e2.mono hδ ((hL t (by simp)).trans (Nat.le_add_right _ _))
          rw [Close, simplify_norm] at hc
          exact hc
      · rw [if_neg h, if_neg h, if_neg (Ne.symm h), add_zero]
        exact ⟨g1, g2.trans (powErr_mono hδ (by omega) (wordSize_nonneg _ _))⟩

/-! ## Kronecker products -/

theorem flKron1d_near {P : PauliOps} {δ : ℝ} (hP : PauliAccurate P δ) (hδ : 0 ≤ δ) {k l : ℕ} {a a' b b' r' : List ℂ}
    (ha : List.Forall₂ (Close δ k) a a') (hb : List.Forall₂ (Close δ l) b b') (h : kron1d a' b' = .ok r') :
    ∃ r, flKron1d P a b = .ok r ∧ List.Forall₂ (Close δ (k + l + 1)) r r' := by
  rw [kron1d] at h
  rw [flKron1d, hb.length_eq]
  split_ifs at h ⊢
  simp only [Except.ok.injEq] at h
  refine ⟨_, rfl, ?_⟩
  subst h
  have row : ∀ {x x' : ℂ}, Close δ k x x' → ∀ {b b' : List ℂ}, List.Forall₂ (Close δ l) b b' →
      List.Forall₂ (Close δ (k + l + 1)) (List.zipWith (fun d y => P.mul d y) (List.replicate b'.length x) b)
        (List.zipWith (fun d y => d * y) (List.replicate b'.length x') b') := by
    intro x x' hx b b' hb
    induction hb with
    | nil => simp
    | cons hy _ ih => simp only [List.length_cons, List.replicate_succ, List.zipWith_cons_cons]; exact .cons (hx.mul hP hδ hy) ih
  induction ha with
  | nil => simp
  | cons hx _ ih => simp only [List.flatMap_cons]; exact List.rel_append (row hx hb) ih

theorem forall₂_getElem? {α β : Type} {R : α → β → Prop} {l : List α} {l' : List β} (h : List.Forall₂ R l l') (i : ℕ) :
    (l[i]? = none ∧ l'[i]? = none) ∨ ∃ a b, l[i]? = some a ∧ l'[i]? = some b ∧ R a b := by
  induction h generalizing i with
  | nil => simp
  | cons hab _ ih =>
    cases i with
    | zero => right; exact ⟨_, _, rfl, rfl, hab⟩
    | succ i => simpa using ih i

theorem flKron1dRec_near {P : PauliOps} {δ : ℝ} (hP : PauliAccurate P δ) (hδ : 0 ≤ δ) {krons krons' : List (List ℂ)}
    (hk : List.Forall₂ (List.Forall₂ (Close δ 1)) krons krons') (cs : List ℕ)
    (hmono : ∀ i j, i ≤ j → j < cs.length → cs.getD i 0 ≤ cs.getD j 0) :
    ∀ fuel lo hi r', lo < hi → kron1dRec krons' cs fuel lo hi = .ok r' →
      ∃ r, flKron1dRec P krons cs fuel lo hi = .ok r ∧ List.Forall₂ (Close δ (2 * (hi - lo) - 1)) r r' := by
  intro fuel
  induction fuel with
  | zero => intro lo hi r' _ h; simp [kron1dRec] at h
  | succ fuel ih =>
    intro lo hi r' hlt h
    rw [kron1dRec] at h
    rw [flKron1dRec]
    split_ifs at h ⊢ with e1 e2
    · rw [e1]
      rcases forall₂_getElem? hk lo with ⟨h1, h2⟩ | ⟨a, b, h1, h2, h3⟩
      · rw [h2] at h; simp at h
      · rw [h2] at h; rw [h1]
        simp only [Except.ok.injEq] at h ⊢
        subst h
        exact ⟨a, rfl, h3⟩
    · rw [e2]
      rcases forall₂_getElem? hk lo with ⟨h1, h2⟩ | ⟨a, b, h1, h2, h3⟩
      · rw [h2] at h; simp at h
      rcases forall₂_getElem? hk (lo + 1) with ⟨g1, g2⟩ | ⟨c, d, g1, g2, g3⟩
      · rw [h2, g2] at h; simp at h
      rw [h2, g2] at h
      rw [h1, g1]
      exact flKron1d_near hP hδ h3 g3 h
    · cases hc : cs[lo]? with
      | none => rw [hc] at h; simp at h
      | some c =>
      cases hd : cs[hi - 1]? with
      | none => rw [hc, hd] at h; simp at h
      | some d =>
      rw [hc, hd] at h
      simp only at h ⊢
      have hlen : hi - 1 < cs.length := by
        by_contra hn
        rw [List.getElem?_eq_none (by omega)] at hd
        simp at hd
      have hc' : cs.getD lo 0 = c := by simp [List.getD, hc]
      have hd' : cs.getD (hi - 1) 0 = d := by simp [List.getD, hd]
      have hle := hmono lo (hi - 1) (by omega) hlen
      rw [hc', hd'] at hle
      have hb := (bisectLeft_bounds cs ((c + d) / 2) lo hi (by omega)).1
      have hl := bisectLeft_lt cs ((c + d) / 2) lo hi hlt (by rw [hd']; omega)
      generalize bisectLeft cs ((c + d) / 2) lo hi = mid at hb hl h ⊢
      split_ifs at h ⊢ with e3
      · rcases forall₂_getElem? hk lo with ⟨h1, h2⟩ | ⟨a, b, h1, h2, h3⟩
        · rw [h2] at h; simp at h
        rw [h2] at h
        rw [h1]
        simp only [bind, Except.bind] at h ⊢
        cases hr : kron1dRec krons' cs fuel (lo + 1) hi with
        | error x => rw [hr] at h; simp at h
        | ok q' =>
          rw [hr] at h
          obtain ⟨q, f1, f2⟩ := ih (lo + 1) hi q' (by omega) hr
          rw [f1]
          obtain ⟨r, f3, f4⟩ := flKron1d_near hP hδ h3 f2 h
          exact ⟨r, f3, f4.imp fun _ _ hc => hc.mono hδ (by omega)⟩
      · simp only [bind, Except.bind] at h ⊢
        cases hp : kron1dRec krons' cs fuel lo mid with
        | error x => rw [hp] at h; simp at h
        | ok p' =>
        rw [hp] at h
        simp only at h
        cases hr : kron1dRec krons' cs fuel mid hi with
        | error x => rw [hr] at h; simp at h
        | ok q' =>
          rw [hr] at h
          obtain ⟨p, f1, f2⟩ := ih lo mid p' (by omega) hp
          obtain ⟨q, g1, g2⟩ := ih mid hi q' (by omega) hr
          rw [f1]
          simp only
          rw [g1]
          obtain ⟨r, f3, f4⟩ := flKron1d_near hP hδ f2 g2 h
          exact ⟨r, f3, f4.imp fun _ _ hc => hc.mono hδ (by omega)⟩

theorem close_refl_list {δ : ℝ} (hδ : 0 ≤ δ) (l : List ℂ) : List.Forall₂ (Close δ 1) l l :=
  List.forall₂_same.2 fun x _ => (Close.refl δ x).mono hδ (by omega)

theorem flScaleFirst_near {P : PauliOps} {δ : ℝ} (hP : PauliAccurate P δ) (hδ : 0 ≤ δ) (c : ℂ) (m : ℕ)
    (l : List (List ℂ)) : List.Forall₂ (List.Forall₂ (Close δ 1)) (flScaleFirst P c m l) (scaleFirst c m l) := by
  have hr : ∀ l : List (List ℂ), List.Forall₂ (List.Forall₂ (Close δ 1)) l l := fun l =>
    List.forall₂_same.2 fun x _ => close_refl_list hδ x
  induction l with
  | nil => exact .nil
  | cons a l ih =>
    rw [flScaleFirst, scaleFirst]
    split_ifs
    · refine .cons ?_ (hr l)
      rw [List.forall₂_map_left_iff, List.forall₂_map_right_iff]
      exact List.forall₂_same.2 fun x _ => (Close.refl δ x).mul hP hδ (Close.refl δ c)
    · exact .cons (close_refl_list hδ a) ih

theorem runData_count (rm : Bool) (G : List (Option PLetter × ℕ)) (h : ∀ g ∈ G, 0 < g.2) :
    (G.flatMap (runData rm)).length ≤ (G.map Prod.snd).sum := by
  induction G with
  | nil => simp
  | cons g G ih =>
    have h1 := ih (fun g hg => h g (List.mem_cons_of_mem _ hg))
    have h2 := h g (by simp)
    have h3 : (runData rm g).length ≤ g.2 := by
      rw [runData]; split <;> simp <;> omega
    rw [List.flatMap_cons, List.length_append, List.map_cons, List.sum_cons]
    omega

theorem groupRuns_total {α : Type} [DecidableEq α] (l : List α) : ((groupRuns l).map Prod.snd).sum = l.length := by
  induction l with
  | nil => rfl
  | cons x l ih =>
    rw [groupRuns]
    cases hr : groupRuns l with
    | nil =>
      rw [hr] at ih
      simp only [List.map_nil, List.sum_nil] at ih
      simp [← ih]
    | cons g r =>
      obtain ⟨y, k⟩ := g
      rw [hr] at ih
      simp only [List.map_cons, List.sum_cons] at ih
      simp only
      split_ifs <;> simp <;> omega

/-- The data array of a term. -/
theorem flTermToDataarray_near {P : PauliOps} {δ : ℝ} (hP : PauliAccurate P δ) (hδ : 0 ≤ δ) (t : PTerm) (n : ℕ) (hn : 0 < n)
    (rm : Bool) (r' : List ℂ) (h : termToDataarray t n rm = .ok r') :
    ∃ r, flTermToDataarray P t n rm = .ok r ∧ List.Forall₂ (Close δ (2 * n)) r r' := by
  rw [termToDataarray] at h
  rw [flTermToDataarray]
  simp only [bind, Except.bind] at h ⊢
  cases hp : setPaulis (List.replicate n none) t.ops with
  | error e => rw [hp] at h; simp at h
  | ok ps =>
  rw [hp] at h
  simp only at h ⊢
  cases hm : minLength ((groupRuns ps).flatMap (runData rm)) with
  | error e => rw [hm] at h; simp at h
  | ok m =>
  rw [hm] at h
  simp only at h ⊢
  have hlen : ps.length = n := by rw [setPaulis_length _ _ _ hp]; simp
  have hne : ps ≠ [] := by rw [← List.length_pos_iff]; omega
  have hs := flScaleFirst_near hP hδ t.coeff m ((groupRuns ps).flatMap (runData rm))
  have hrev : List.Forall₂ (List.Forall₂ (Close δ 1))
      (flScaleFirst P t.coeff m ((groupRuns ps).flatMap (runData rm))).reverse
      (scaleFirst t.coeff m ((groupRuns ps).flatMap (runData rm))).reverse := List.rel_reverse hs
  have hl : ∀ {a b : List (List ℂ)}, List.Forall₂ (List.Forall₂ (Close δ 1)) a b → a.map List.length = b.map List.length := by
    intro a b hab
    induction hab with
    | nil => rfl
    | cons h _ ih => simp [h.length_eq, ih]
  rw [hl hrev]
  have hc : (cumsumFrom 0 ((scaleFirst t.coeff m ((groupRuns ps).flatMap (runData rm))).reverse.map List.length)).length =
      ((groupRuns ps).flatMap (runData rm)).length := by
    rw [length_cumsumFrom, List.length_map, List.length_reverse, scaleFirst_length]
  have hpos : 0 < ((groupRuns ps).flatMap (runData rm)).length := List.length_pos_iff.2 (dataList_ne rm ps hne)
  obtain ⟨r, h1, h2⟩ := flKron1dRec_near hP hδ hrev _ (fun i j hij hj => cumsumFrom_mono _ _ _ _ hij
    (by rw [length_cumsumFrom] at hj; exact hj)) _ _ _ r' (by omega) h
  refine ⟨r, h1, h2.imp fun _ _ hx => hx.mono hδ ?_⟩
  have := runData_count rm (groupRuns ps) (groupRuns_pos ps)
  rw [groupRuns_total, hlen] at this
  omega

/-! ## Groups -/

theorem forall₂_tab {R : ℂ → ℂ → Prop} {m : ℕ} {g : ℕ → ℂ} {r : List ℂ} (h : List.Forall₂ R r (tab m g)) :
    ∃ f, r = tab m f ∧ ∀ j < m, R (f j) (g j) := by
  refine ⟨fun j => r.getD j 0, ?_, ?_⟩
  · have hl := h.length_eq
    rw [tab_length] at hl
    apply List.ext_getElem (by rw [hl, tab_length])
    intro i h1 h2
    simp [tab, List.getD, h1]
  · intro j hj
    rcases forall₂_getElem? h j with ⟨h1, h2⟩ | ⟨a, b, h1, h2, h3⟩
    · rw [tab, List.getElem?_map, List.getElem?_range hj] at h2; simp at h2
    · rw [tab, List.getElem?_map, List.getElem?_range hj] at h2
      simp only [Option.map_some, Option.some.injEq] at h2
      simp only [List.getD, h1, Option.getD_some, h2]
      exact h3

theorem wordPhase_norm (rm : Bool) (w : List POp) (j : ℕ) : ‖wordPhase rm w j‖ = 1 := by
  rw [wordPhase]
  induction w with
  | nil => simp
  | cons o w ih =>
    rw [List.map_cons, List.prod_cons, norm_mul, ih, mul_one]
    obtain ⟨p, q⟩ := o
    cases p <;> cases rm <;> simp [phase] <;> split_ifs <;> simp

/-- The sum of the absolute values of the coefficients. -/
def coeffSize (ts : List PTerm) : ℝ := (ts.map (fun t => ‖t.coeff‖)).sum

theorem coeffSize_nonneg (ts : List PTerm) : 0 ≤ coeffSize ts := by
  refine List.sum_nonneg fun x hx => ?_
  obtain ⟨t, -, rfl⟩ := List.mem_map.1 hx
  exact norm_nonneg _

theorem dataarray_tab {P : PauliOps} {δ : ℝ} (hP : PauliAccurate P δ) (hδ : 0 ≤ δ) (t : PTerm) (hw : NormalWord t.ops)
    (n : ℕ) (hn : 0 < n) (hq : ∀ o ∈ t.ops, o.n < n) (rm : Bool) :
    ∃ f, flTermToDataarray P t n rm = .ok (tab (2 ^ n) f) ∧
      ∀ j < 2 ^ n, ‖f j - t.coeff * wordPhase rm t.ops j‖ ≤ ((1 + δ) ^ (2 * n) - 1) * ‖t.coeff‖ := by
  obtain ⟨r, h1, h2⟩ := flTermToDataarray_near hP hδ t n hn rm _ (termToDataarray_ok t hw n hn hq rm)
  obtain ⟨f, rfl, hf⟩ := forall₂_tab h2
  refine ⟨f, h1, fun j hj => ?_⟩
  have := hf j hj
  rw [Close, norm_mul, wordPhase_norm, mul_one] at this
  exact this

theorem flGroupValues_near {P : PauliOps} {δ : ℝ} (hP : PauliAccurate P δ) (hδ : 0 ≤ δ) (n : ℕ) (hn : 0 < n) (rm : Bool)
    (ts : List PTerm) (h : ∀ t ∈ ts, NormalWord t.ops ∧ ∀ o ∈ t.ops, o.n < n) :
    ∀ (f g : ℕ → ℂ) (A : ℝ) (k : ℕ), 2 * n ≤ k →
      (∀ j < 2 ^ n, ‖g j‖ ≤ A ∧ ‖f j - g j‖ ≤ ((1 + δ) ^ k - 1) * A) →
      ∃ f', flGroupValues P n rm ts (tab (2 ^ n) f) = .ok (tab (2 ^ n) f') ∧
        ∀ j < 2 ^ n, ‖f' j - (g j + groupVal rm ts j)‖ ≤ ((1 + δ) ^ (k + ts.length) - 1) * (A + coeffSize ts) := by
  induction ts with
  | nil => intro f g A k _ hf; exact ⟨f, rfl, fun j hj => by simpa [groupVal, coeffSize] using (hf j hj).2⟩
  | cons t ts ih =>
    intro f g A k hk hf
    obtain ⟨h1, h2⟩ := h t (by simp)
    obtain ⟨d, d1, d2⟩ := dataarray_tab hP hδ t h1 n hn h2 rm
    have key : ∀ j < 2 ^ n, ‖g j + t.coeff * wordPhase rm t.ops j‖ ≤ A + ‖t.coeff‖ ∧
        ‖P.add (f j) (d j) - (g j + t.coeff * wordPhase rm t.ops j)‖ ≤ ((1 + δ) ^ (k + 1) - 1) * (A + ‖t.coeff‖) := by
      intro j hj
      obtain ⟨a1, a2⟩ := hf j hj
      have hc : ‖t.coeff * wordPhase rm t.ops j‖ ≤ ‖t.coeff‖ := by rw [norm_mul, wordPhase_norm, mul_one]
      refine ⟨(norm_add_le _ _).trans (add_le_add a1 hc), ?_⟩
      exact relErr_step hδ a1 hc a2 ((d2 j hj).trans (powErr_mono hδ hk (norm_nonneg _))) (hP.add _ _)
    obtain ⟨f', e1, e2⟩ := ih (fun s hs => h s (List.mem_cons_of_mem _ hs)) (fun j => P.add (f j) (d j))
      (fun j => g j + t.coeff * wordPhase rm t.ops j) (A + ‖t.coeff‖) (k + 1) (by omega) key
    refine ⟨f', ?_, ?_⟩
    · rw [flGroupValues, d1]
      simp only [bind, Except.bind]
      rw [← e1]
      congr 1
      simp [tab, List.zipWith_map, List.zipWith_self]
    · intro j hj
      have := e2 j hj
      simp only [groupVal, coeffSize, List.map_cons, List.sum_cons, List.length_cons] at this ⊢
      rw [show k + (ts.length + 1) = k + 1 + ts.length by omega, ← add_assoc, ← add_assoc]
      exact this

theorem flFillGroups_near {P : PauliOps} {δ : ℝ} (hP : PauliAccurate P δ) (hδ : 0 ≤ δ) (n N T : ℕ) (hn : 0 < n) (rm : Bool)
    (grps : List (List PTerm))
    (hg : ∀ g ∈ grps, g ≠ [] ∧ (∀ s ∈ g, ∀ t ∈ g, xorBits s.ops = xorBits t.ops) ∧
      ∀ t ∈ g, NormalWord t.ops ∧ ∀ o ∈ t.ops, o.n < n) (hT : ∀ g ∈ grps, g.length ≤ T) :
    ∀ (i : ℕ) (vals : List ℂ) (inds : List ℕ), i + grps.length = N → vals.length = N * 2 ^ n →
      inds.length = N * 2 ^ n →
      ∃ vals' inds', flFillGroups P n (2 ^ n) N rm i grps vals inds = .ok (vals', inds') ∧
        vals'.length = N * 2 ^ n ∧ inds'.length = N * 2 ^ n ∧
        (∀ k < 2 ^ n, ∀ m < i, vals'[m + N * k]? = vals[m + N * k]? ∧ inds'[m + N * k]? = inds[m + N * k]?) ∧
        ∀ k < 2 ^ n, ∀ m g, grps[m]? = some g → (∃ v, vals'[(i + m) + N * k]? = some v ∧
            ‖v - groupVal rm g k‖ ≤ ((1 + δ) ^ (2 * n + T) - 1) * coeffSize g) ∧
          ∀ t ∈ g, inds'[(i + m) + N * k]? = some (k ^^^ xorBits t.ops) := by
  induction grps with
  | nil =>
    intro i vals inds _ h1 h2
    exact ⟨vals, inds, rfl, h1, h2, fun _ _ _ _ => ⟨rfl, rfl⟩, fun _ _ m g h => by simp at h⟩
  | cons g grps ih =>
    intro i vals inds hi h1 h2
    obtain ⟨hne, hx, hw⟩ := hg g (by simp)
    obtain ⟨t, ts, rfl⟩ := List.exists_cons_of_ne_nil hne
    obtain ⟨hw1, hw2⟩ := hw t (by simp)
    rw [List.length_cons] at hi
    obtain ⟨d, d1, d2⟩ := dataarray_tab hP hδ t hw1 n hn hw2 rm
    obtain ⟨v, v1, v2⟩ := flGroupValues_near hP hδ n hn rm ts (fun s hs => hw s (List.mem_cons_of_mem _ hs)) d
      (fun j => t.coeff * wordPhase rm t.ops j) ‖t.coeff‖ (2 * n) le_rfl
      (fun j hj => ⟨by rw [norm_mul, wordPhase_norm, mul_one], d2 j hj⟩)
    have v3 : ∀ j < 2 ^ n, ‖v j - groupVal rm (t :: ts) j‖ ≤ ((1 + δ) ^ (2 * n + T) - 1) * coeffSize (t :: ts) := by
      intro j hj
      have := v2 j hj
      have hl := hT (t :: ts) (by simp)
      rw [List.length_cons] at hl
      refine le_trans ?_ (powErr_mono hδ (show 2 * n + ts.length ≤ 2 * n + T by omega) (coeffSize_nonneg _))
      simpa [groupVal, coeffSize] using this
    obtain ⟨vals', inds', e, l1, l2, l3, l4⟩ := ih (fun g hg' => hg g (List.mem_cons_of_mem _ hg'))
      (fun g hg' => hT g (List.mem_cons_of_mem _ hg')) (i + 1)
      (setStride N i (tab (2 ^ n) v) vals) (setStride N i (termToIndices t (2 ^ n)) inds)
      (by omega) (by rw [setStride_length]; exact h1) (by rw [setStride_length]; exact h2)
    have hlt : ∀ k < 2 ^ n, ∀ m < N, m + N * k < N * 2 ^ n := by
      intro k hk m hm
      have : N * (k + 1) ≤ N * 2 ^ n := Nat.mul_le_mul_left _ hk
      rw [Nat.mul_succ] at this; omega
    have hmiss : ∀ k m, m < i → ∀ k', m + N * k ≠ i + N * k' := by
      intro k m hm k' e
      have := congrArg (· % N) e
      simp only [Nat.add_mul_mod_self_left] at this
      rw [Nat.mod_eq_of_lt (by omega), Nat.mod_eq_of_lt (by omega)] at this
      omega
    refine ⟨vals', inds', ?_, l1, l2, ?_, ?_⟩
    · rw [flFillGroups, d1]
      simp only [bind, Except.bind]
      rw [v1]
      exact e
    · intro k hk m hm
      obtain ⟨a, b⟩ := l3 k hk m (by omega)
      rw [a, b, setStride_miss _ _ _ _ _ (fun k' _ => hmiss k m hm k'),
        setStride_miss _ _ _ _ _ (fun k' _ => hmiss k m hm k')]
      exact ⟨rfl, rfl⟩
    · intro k hk m g hm
      cases m with
      | zero =>
        simp only [List.getElem?_cons_zero, Option.some.injEq] at hm
        subst hm
        obtain ⟨a, b⟩ := l3 k hk i (by omega)
        have hk' := hlt k hk i (by omega)
        rw [Nat.add_zero, a, setStride_hit _ _ (by omega) _ _ k (by rw [tab_length]; exact hk) (by omega), b,
          setStride_hit _ _ (by omega) _ _ k (by simpa [termToIndices] using hk) (by omega)]
        refine ⟨⟨v k, by simp [tab, List.getElem?_map, List.getElem?_range hk], v3 k hk⟩, fun s hs => ?_⟩
        rw [termToIndices, List.getElem?_map, List.getElem?_range hk, Option.map_some, hx t (by simp) s hs]
      | succ m =>
        have := l4 k hk m g (by simpa using hm)
        rw [show i + (m + 1) = i + 1 + m by omega]
        exact this

theorem sum_range_groups_near (G : List (List PTerm)) (h : PTerm → ℂ) (r : ℝ) (F : ℕ → ℂ)
    (hF : ∀ m g, G[m]? = some g → ‖F m - (g.map h).sum‖ ≤ r * (g.map (fun t => ‖h t‖)).sum) :
    ‖((List.range G.length).map F).sum - (G.flatten.map h).sum‖ ≤ r * (G.flatten.map (fun t => ‖h t‖)).sum := by
  induction G generalizing F with
  | nil => simp
  | cons g G ih =>
    have h0 := hF 0 g rfl
    have h1 := ih (F ∘ Nat.succ) (fun m g' hm => hF (m + 1) g' (by simpa using hm))
    rw [List.length_cons, List.range_succ_eq_map, List.map_cons, List.sum_cons, List.map_map, List.flatten_cons,
      List.map_append, List.map_append, List.sum_append, List.sum_append, add_sub_add_comm, mul_add]
    exact (norm_add_le _ _).trans (add_le_add h0 h1)

theorem entryOf_norm (rm : Bool) (t : PTerm) (i j : ℕ) : ‖entryOf rm t i j‖ = if i ^^^ xorBits t.ops = j then ‖t.coeff‖ else 0 := by
  rw [entryOf]
  split_ifs
  · rw [norm_mul, wordPhase_norm, mul_one]
  · simp

/-- The entries the filled arrays describe. -/
theorem compressed_groups_near (n N : ℕ) (rm : Bool) (r : ℝ) (grps : List (List PTerm)) (hN : grps.length = N)
    (hx : ∀ g ∈ grps, g ≠ [] ∧ ∀ s ∈ g, ∀ t ∈ g, xorBits s.ops = xorBits t.ops)
    (vals : List ℂ) (inds : List ℕ)
    (hv : ∀ k < 2 ^ n, ∀ m g, grps[m]? = some g →
      (∃ v, vals[m + N * k]? = some v ∧ ‖v - groupVal rm g k‖ ≤ r * coeffSize g) ∧
      ∀ t ∈ g, inds[m + N * k]? = some (k ^^^ xorBits t.ops)) (major minor : ℕ) (h : major < 2 ^ n) :
    ‖compressedEntry vals inds ((List.range (2 ^ n + 1)).map (fun k => k * N)) major minor -
      (grps.flatten.map (fun t => entryOf rm t major minor)).sum‖ ≤
      r * (grps.flatten.map (fun t => ‖entryOf rm t major minor‖)).sum := by
  rw [compressedEntry, rangeMap_getD _ _ _ _ (by omega), rangeMap_getD _ _ _ _ (by omega),
    show (major + 1) * N - major * N = N by rw [Nat.succ_mul]; omega, List.range'_eq_map_range, List.map_map, ← hN]
  apply sum_range_groups_near
  intro m g hm
  obtain ⟨⟨v, h1, h1'⟩, h2⟩ := hv major h m g hm
  obtain ⟨hne, hk⟩ := hx g (List.mem_of_getElem? hm)
  obtain ⟨t, ts, rfl⟩ := List.exists_cons_of_ne_nil hne
  have h3 := h2 t (by simp)
  have e : major * grps.length + m = m + N * major := by rw [hN, mul_comm]; omega
  simp only [Function.comp, e, List.getD, h1, h3, Option.getD_some]
  have e1 : ((t :: ts).map (fun t => entryOf rm t major minor)) = (t :: ts).map (fun s =>
      if major ^^^ xorBits t.ops = minor then s.coeff * wordPhase rm s.ops major else 0) := by
    apply List.map_congr_left
    intro s hs
    rw [entryOf, hk s hs t (by simp)]
  have e2 : ((t :: ts).map (fun t => ‖entryOf rm t major minor‖)) = (t :: ts).map (fun s =>
      if major ^^^ xorBits t.ops = minor then ‖s.coeff‖ else 0) := by
    apply List.map_congr_left
    intro s hs
    rw [entryOf_norm, hk s hs t (by simp)]
  rw [e1, e2]
  split_ifs with hc
  · exact h1'
  · simp

/-! ## The simplified expression -/

theorem dictAdd_length (ts : List PTerm) : ∀ d : PyDict (List POp) ℂ, (ts.foldl dictAdd d).length ≤ d.length + ts.length := by
  have hset : ∀ (d : PyDict (List POp) ℂ) k x, (d.set k x).length ≤ d.length + 1 := by
    intro d k x
    induction d with
    | nil => simp [PyDict.set]
    | cons a d ih =>
      obtain ⟨a1, a2⟩ := a
      rw [PyDict.set]
      split_ifs <;> simp [ih]
  induction ts with
  | nil => simp
  | cons t ts ih =>
    intro d
    have h1 := ih (dictAdd d t)
    have h2 := hset d t.ops ((d.get t.ops).getD 0 + t.coeff)
    rw [List.foldl_cons, List.length_cons]
    rw [dictAdd] at h1 ⊢
    omega

theorem flSimplify_terms (P : PauliOps) (e : PExpr) :
    (e.flSimplify P).terms = ((sortByRepr ((e.flSimplifyDict P).map Prod.fst)).filter
      (fun k => decide (coef (e.flSimplifyDict P) k ≠ 0))).map (fun k => ⟨k, coef (e.flSimplifyDict P) k⟩) := by
  rw [PExpr.flSimplify, PExpr.fromTermsIter]
  show List.filter _ (((sortByRepr ((e.flSimplifyDict P).map Prod.fst)).filter
      (fun k => decide (coef (e.flSimplifyDict P) k ≠ 0))).map (fun k => (⟨k, coef (e.flSimplifyDict P) k⟩ : PTerm))) = _
  rw [List.filter_eq_self]
  intro t ht
  obtain ⟨k, hk, rfl⟩ := List.mem_map.1 ht
  have := List.of_mem_filter (p := fun k => decide (coef (e.flSimplifyDict P) k ≠ 0)) hk
  simpa using this

theorem entrySize_nonneg (e : PExpr) (i j : ℕ) : 0 ≤ entrySize e i j := by
  refine List.sum_nonneg fun x hx => ?_
  obtain ⟨t, -, rfl⟩ := List.mem_map.1 hx
  exact norm_nonneg _

/-- What the words contribute to an entry, added up word by word. -/
theorem wordSize_sum (e : PExpr) (S : Finset (List POp)) (hS : ∀ t ∈ e.terms, t.simplify.ops ∈ S) (i j : ℕ) :
    ∑ w ∈ S, wordSize e.terms w * ‖wordOp w (basis j) i‖ = entrySize e i j := by
  rw [entrySize]
  obtain ⟨ts⟩ := e
  simp only at hS ⊢
  induction ts with
  | nil => simp [wordSize]
  | cons t ts ih =>
    have h1 := ih (fun s hs => hS s (List.mem_cons_of_mem _ hs))
    have h2 : ∀ w, wordSize (t :: ts) w = (if t.simplify.ops = w then ‖t.coeff‖ else 0) + wordSize ts w := by
      intro w; simp [wordSize]
    simp only [h2, add_mul, Finset.sum_add_distrib, h1, List.map_cons, List.sum_cons]
    congr 1
    simp only [ite_mul, zero_mul]
    rw [Finset.sum_ite_eq, if_pos (hS t (by simp)), ← simplify_op t, termOp, LinearMap.smul_apply, Pi.smul_apply, smul_eq_mul,
      norm_mul, simplify_norm]

/-- The words and coefficients after `simplify`. -/
theorem flSimplify_near {P : PauliOps} {δ : ℝ} (hP : PauliAccurate P δ) (hδ : 0 ≤ δ) (e : PExpr) (n L : ℕ)
    (hq : ∀ t ∈ e.terms, ∀ o ∈ t.ops, o.n < n) (hL : ∀ t ∈ e.terms, t.ops.length ≤ L) :
    (∀ t ∈ (e.flSimplify P).terms, NormalWord t.ops ∧ ∀ o ∈ t.ops, o.n < n) ∧
    (e.flSimplify P).terms.length ≤ e.terms.length ∧
    ∀ i j, ‖((e.flSimplify P).terms.map (fun t => termOp t (basis j) i)).sum - exprOp e (basis j) i‖ ≤
        ((1 + δ) ^ (L + e.terms.length) - 1) * entrySize e i j ∧
      ((e.flSimplify P).terms.map (fun t => ‖termOp t (basis j) i‖)).sum ≤ (1 + δ) ^ (L + e.terms.length) * entrySize e i j := by
  classical
  obtain ⟨hk, hc⟩ := flSimplifyDict_near hP hδ L e.terms [] [] [] hL rfl (fun w => by simp [coef, wordSize, PyDict.get])
  simp only [List.nil_append, List.length_nil, zero_add] at hc
  have hk' : (e.flSimplifyDict P).map Prod.fst = e.simplifyDict.map Prod.fst := hk
  have hc' : ∀ w, ‖coef e.simplifyDict w‖ ≤ wordSize e.terms w ∧ ‖coef (e.flSimplifyDict P) w - coef e.simplifyDict w‖ ≤
      ((1 + δ) ^ (L + e.terms.length) - 1) * wordSize e.terms w := hc
  have hin : ∀ w ∈ e.simplifyDict.map Prod.fst, NormalWord w ∧ ∀ o ∈ w, o.n < n := by
    refine dictIn_foldl_dictAdd _ _ (by intro w hw; simp at hw) ?_
    intro t ht
    obtain ⟨s, hs, rfl⟩ := List.mem_map.1 ht
    exact ⟨simplify_normal s, simplify_qubits s n (hq s hs)⟩
  set K := (sortByRepr ((e.flSimplifyDict P).map Prod.fst)).filter (fun k => decide (coef (e.flSimplifyDict P) k ≠ 0)) with hKdef
  have hKmem : ∀ w, w ∈ K ↔ w ∈ e.simplifyDict.map Prod.fst ∧ coef (e.flSimplifyDict P) w ≠ 0 := by
    intro w
    rw [hKdef, List.mem_filter, (sortByRepr_perm _).mem_iff, hk']
    simp
  have hKnd : K.Nodup := List.Nodup.filter _ ((sortByRepr_perm _).nodup_iff.2 (by rw [hk']; exact simplifyDict_wf e))
  have hterms : (e.flSimplify P).terms = K.map (fun k => ⟨k, coef (e.flSimplifyDict P) k⟩) := flSimplify_terms P e
  set S := (e.simplifyDict.map Prod.fst).toFinset with hS
  have hSt : ∀ t ∈ e.terms, t.simplify.ops ∈ S := by
    intro t ht
    rw [hS, List.mem_toFinset]
    have : ∀ (ts : List PTerm) (d : PyDict (List POp) ℂ) (w : List POp), (w ∈ d.map Prod.fst ∨ ∃ s ∈ ts, s.ops = w) →
        w ∈ (ts.foldl dictAdd d).map Prod.fst := by
      intro ts
      induction ts with
      | nil => intro d w h; simpa using h
      | cons s ts ih =>
        intro d w h
        rw [List.foldl_cons]
        apply ih
        rw [dictAdd, PyDict.mem_map_fst_set]
        rcases h with h | ⟨s', hs', rfl⟩
        · tauto
        · rcases List.mem_cons.1 hs' with rfl | h
          · tauto
          · exact Or.inr ⟨s', h, rfl⟩
    exact this _ _ _ (Or.inr ⟨t.simplify, List.mem_map_of_mem ht, rfl⟩)
  have hsub : K.toFinset ⊆ S := by
    intro w hw
    rw [hS, List.mem_toFinset]
    exact ((hKmem w).1 (List.mem_toFinset.1 hw)).1
  refine ⟨?_, ?_, ?_⟩
  · intro t ht
    rw [hterms] at ht
    obtain ⟨k, hk1, rfl⟩ := List.mem_map.1 ht
    exact hin k ((hKmem k).1 hk1).1
  · rw [hterms, List.length_map]
    have h1 : K.length ≤ ((e.flSimplifyDict P).map Prod.fst).length :=
      (List.length_filter_le _ _).trans (sortByRepr_perm _).length_eq.le
    rw [hk', List.length_map] at h1
    have h2 := dictAdd_length (e.terms.map PTerm.simplify) []
    rw [List.length_map, List.length_nil, zero_add] at h2
    exact h1.trans h2
  · intro i j
    have hsum : ∀ g : List POp → ℂ, (K.map (fun k => coef (e.flSimplifyDict P) k * g k)).sum =
        ∑ w ∈ S, coef (e.flSimplifyDict P) w * g w := by
      intro g
      rw [← List.sum_toFinset _ hKnd]
      apply Finset.sum_subset hsub
      intro w hw hn
      rw [List.mem_toFinset, hKmem, not_and, not_not] at hn
      rw [hn (List.mem_toFinset.1 hw), zero_mul]
    have hsum2 : (K.map (fun k => ‖coef (e.flSimplifyDict P) k‖ * ‖wordOp k (basis j) i‖)).sum ≤
        ∑ w ∈ S, ‖coef (e.flSimplifyDict P) w‖ * ‖wordOp w (basis j) i‖ := by
      rw [← List.sum_toFinset _ hKnd]
      exact Finset.sum_le_sum_of_subset_of_nonneg hsub fun w _ _ => by positivity
    have hexact : exprOp e (basis j) i = ∑ w ∈ S, coef e.simplifyDict w * wordOp w (basis j) i := by
      rw [← simplifyDict_op e, dictOp_eq_sum (simplifyDict_wf e) S (fun w hw => List.mem_toFinset.2 hw)]
      simp
    constructor
    · rw [hterms, List.map_map]
      have : ((fun t => termOp t (basis j) i) ∘ fun k => (⟨k, coef (e.flSimplifyDict P) k⟩ : PTerm)) =
          fun k => coef (e.flSimplifyDict P) k * wordOp k (basis j) i := by
        funext k; simp [termOp]
      rw [this, hsum, hexact, ← Finset.sum_sub_distrib, ← wordSize_sum e S hSt i j, Finset.mul_sum]
      refine (norm_sum_le _ _).trans (Finset.sum_le_sum fun w _ => ?_)
      rw [← sub_mul, norm_mul, ← mul_assoc]
      exact mul_le_mul_of_nonneg_right (hc' w).2 (norm_nonneg _)
    · rw [hterms, List.map_map]
      have : ((fun t => ‖termOp t (basis j) i‖) ∘ fun k => (⟨k, coef (e.flSimplifyDict P) k⟩ : PTerm)) =
          fun k => ‖coef (e.flSimplifyDict P) k‖ * ‖wordOp k (basis j) i‖ := by
        funext k; simp [termOp]
      rw [this, ← wordSize_sum e S hSt i j, Finset.mul_sum]
      refine hsum2.trans (Finset.sum_le_sum fun w _ => ?_)
      rw [← mul_assoc]
      refine mul_le_mul_of_nonneg_right ?_ (norm_nonneg _)
      obtain ⟨h1, h2⟩ := hc' w
      have h3 : coef (e.flSimplifyDict P) w = (coef (e.flSimplifyDict P) w - coef e.simplifyDict w) + coef e.simplifyDict w := by
        ring
      rw [h3]
      refine (norm_add_le _ _).trans ?_
      linarith

/-! ## The matrix -/

theorem flExprRows_near {P : PauliOps} {δ : ℝ} (hP : PauliAccurate P δ) (hδ : 0 ≤ δ) (jv : ℕ → ℂ) (ji : ℕ → ℕ) (e : PExpr)
    (n L : ℕ) (hn : 0 < n) (hq : ∀ t ∈ e.terms, ∀ o ∈ t.ops, o.n < n) (hL : ∀ t ∈ e.terms, t.ops.length ≤ L)
    (hne : (e.flSimplify P).terms ≠ []) (f : SparseArg) (hf : f ≠ .other) :
    ∃ M : ℕ → ℕ → ℂ, e.flToMatrix P jv ji n f =
        .ok ⟨f, (List.range (2 ^ n)).map fun i => (List.range (2 ^ n)).map fun j => M i j⟩ ∧
      ∀ i < 2 ^ n, ∀ j < 2 ^ n, ‖M i j - exprOp e (basis j) i‖ ≤
        ((1 + δ) ^ matrixDepth n e.terms.length L - 1) * entrySize e i j := by
  obtain ⟨hs1, hs2, hs3⟩ := flSimplify_near hP hδ e n L hq hL
  rw [PExpr.flToMatrix, if_neg hf]
  simp only [show ((n : ℤ) = -1) = False by simp, if_false]
  rw [if_neg (by omega), if_neg (by omega)]
  simp only [Int.toNat_natCast]
  set ts := (e.flSimplify P).terms with hts
  set key : PTerm → ℕ := fun t => xorBits t.ops with hkey
  set sorted := ts.mergeSort (fun s t => decide (key s ≤ key t)) with hsorted
  have hperm : sorted.Perm ts := List.mergeSort_perm _ _
  have hflat := groupByKey_flatten key sorted
  have hkeys := groupByKey_keys key sorted
  set grps := groupByKey key sorted with hgrps
  have hmem : ∀ g ∈ grps, ∀ t ∈ g, NormalWord t.ops ∧ ∀ o ∈ t.ops, o.n < n := by
    intro g hg t ht
    apply hs1
    rw [← hperm.mem_iff, ← hflat]; exact List.mem_flatten.2 ⟨g, hg, ht⟩
  have hN : 0 < grps.length := by
    rw [List.length_pos_iff]
    intro h0
    rw [h0] at hflat
    apply hne
    rw [← hflat] at hperm; simpa using hperm
  have hT : ∀ g ∈ grps, g.length ≤ e.terms.length := by
    intro g hg
    refine le_trans ?_ hs2
    rw [← hperm.length_eq, ← hflat]
    exact (List.sublist_flatten_of_mem hg).length_le
  have hfin : ∀ i j (E : PTerm → ℂ) (x : ℂ), (∀ t ∈ grps.flatten, E t = termOp t (basis j) i) →
      ‖x - (grps.flatten.map E).sum‖ ≤ ((1 + δ) ^ (2 * n + e.terms.length) - 1) * (grps.flatten.map (fun t => ‖E t‖)).sum →
      ‖x - exprOp e (basis j) i‖ ≤ ((1 + δ) ^ matrixDepth n e.terms.length L - 1) * entrySize e i j := by
    intro i j E x hE h
    rw [List.map_congr_left hE, List.map_congr_left (g := fun t => ‖termOp t (basis j) i‖) (fun t ht => by rw [hE t ht]),
      hflat, (hperm.map _).sum_eq, (hperm.map _).sum_eq] at h
    obtain ⟨a1, a2⟩ := hs3 i j
    have hX := one_le_pow₀ (show (1 : ℝ) ≤ 1 + δ by linarith) (n := 2 * n + e.terms.length)
    have e1 : x - exprOp e (basis j) i = (x - (ts.map (fun t => termOp t (basis j) i)).sum) +
        ((ts.map (fun t => termOp t (basis j) i)).sum - exprOp e (basis j) i) := by ring
    rw [e1]
    refine (norm_add_le _ _).trans ?_
    have h2 := h.trans (mul_le_mul_of_nonneg_left a2 (by linarith))
    have e2 : matrixDepth n e.terms.length L = (2 * n + e.terms.length) + (L + e.terms.length) := by rw [matrixDepth]; omega
    rw [e2, pow_add]
    refine (add_le_add h2 a1).trans (le_of_eq ?_)
    ring
  obtain ⟨vals, inds, e1, e2, e3, -, e4⟩ := flFillGroups_near hP hδ n grps.length e.terms.length hn (decide (f = .csr)) grps
    (fun g hg => ⟨(hkeys g hg).1, (hkeys g hg).2, hmem g hg⟩) hT 0 ((List.range (grps.length * 2 ^ n)).map jv)
    ((List.range (grps.length * 2 ^ n)).map ji) (by omega) (by simp) (by simp)
  simp only [zero_add] at e4
  have hcheck : compressedCheck vals inds ((List.range (2 ^ n + 1)).map (fun k => k * grps.length)) (2 ^ n) = true := by
    rw [compressedCheck, decide_eq_true_eq]
    refine ⟨by simp, ?_, by omega, ?_, ?_⟩
    · rw [rangeMap_getD _ _ _ _ (Nat.succ_pos _)]; simp
    · rw [rangeMap_getD _ _ _ _ (by omega), e3, mul_comm]
    · intro x hx
      obtain ⟨p, hp⟩ := List.mem_iff_getElem?.1 hx
      have hp' := (List.getElem?_eq_some_iff.1 hp).1
      rw [e3] at hp'
      have hk : p / grps.length < 2 ^ n := Nat.div_lt_of_lt_mul hp'
      have hm : p % grps.length < grps.length := Nat.mod_lt _ hN
      obtain ⟨t, ts, hg⟩ := List.exists_cons_of_ne_nil (hkeys (grps[p % grps.length]'hm) (List.getElem_mem _)).1
      have := (e4 (p / grps.length) hk (p % grps.length) (t :: ts)
        (by rw [List.getElem?_eq_getElem hm, hg])).2 t (by simp)
      rw [Nat.mod_add_div, hp, Option.some.injEq] at this
      rw [this]
      have ht := hmem _ (List.getElem_mem hm) t (by rw [hg]; simp)
      exact Nat.xor_lt_two_pow hk (xorBits_lt _ ht.1 n ht.2)
  simp only [bind, Except.bind]
  rw [e1]
  simp only
  rw [arangeStep_ok _ _ hN]
  simp only
  by_cases hc : f = .csr
  · simp only [hc, decide_true, if_true] at e4 ⊢
    rw [csrRows, if_pos hcheck]
    refine ⟨_, rfl, fun i hi j hj => hfin i j (fun t => entryOf true t i j) _ ?_ ?_⟩
    · intro t ht
      obtain ⟨g, hg, ht⟩ := List.mem_flatten.1 ht
      exact entryOf_row t (hmem g hg t ht).1 i j
    · exact compressed_groups_near n grps.length true _ grps rfl (fun g hg => hkeys g hg) vals inds e4 i j hi
  · simp only [hc, decide_false, Bool.false_eq_true, if_false] at e4 ⊢
    rw [cscRows, if_pos hcheck]
    refine ⟨_, rfl, fun i hi j hj => hfin i j (fun t => entryOf false t j i) _ ?_ ?_⟩
    · intro t ht
      obtain ⟨g, hg, ht⟩ := List.mem_flatten.1 ht
      exact entryOf_col t (hmem g hg t ht).1 i j
    · exact compressed_groups_near n grps.length false _ grps rfl (fun g hg => hkeys g hg) vals inds e4 j i hj

end

end Blueqat
