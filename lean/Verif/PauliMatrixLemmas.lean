import Verif.PauliKron
import Verif.PauliSimplify
import Mathlib.Tactic.Linarith

/-!
# Lemmas for `to_matrix`: the data arrays
-/

set_option linter.unusedSimpArgs false
set_option linter.unusedVariables false

namespace Blueqat

open Spec

noncomputable section

/-- The vector of the values of a function. -/
def tab (n : ℕ) (g : ℕ → ℂ) : List ℂ := (List.range n).map g

theorem tab_length (n : ℕ) (g : ℕ → ℂ) : (tab n g).length = n := by simp [tab]

theorem tab_congr {n : ℕ} {g h : ℕ → ℂ} (e : ∀ j < n, g j = h j) : tab n g = tab n h := by
  apply List.map_congr_left
  intro j hj; exact e j (List.mem_range.1 hj)

theorem tab_getD (n : ℕ) (g : ℕ → ℂ) (j : ℕ) (h : j < n) : (tab n g).getD j 0 = g j := by
  simp [tab, List.getD, List.getElem?_map, List.getElem?_range h]

theorem tab_ne_nil {n : ℕ} (h : 0 < n) (g : ℕ → ℂ) : tab n g ≠ [] := by
  rw [← List.length_pos_iff, tab_length]; exact h

theorem kron_tab (m k : ℕ) (hk : 0 < k) (g h : ℕ → ℂ) :
    kron (tab m g) (tab k h) = tab (m * k) (fun j => g (j / k) * h (j % k)) := by
  induction m with
  | zero => simp [tab, kron]
  | succ m ih =>
    have h1 : tab (m + 1) g = tab m g ++ [g m] := by simp [tab, List.range_succ]
    rw [h1, kron_append, ih, Nat.succ_mul]
    simp only [tab]
    rw [List.range_add, List.map_append]
    congr 1
    simp only [kron, List.flatMap_cons, List.flatMap_nil, List.append_nil, tab, List.map_map]
    apply List.map_congr_left
    intro j hj
    have hj := List.mem_range.1 hj
    simp only [Function.comp]
    rw [show m * k + j = j + k * m by ring, Nat.add_mul_div_left _ _ hk, Nat.add_mul_mod_self_left,
      Nat.div_eq_of_lt hj, Nat.mod_eq_of_lt hj, zero_add]

/-- The factor of one letter, for bit `b` of the row (`true`) or column (`false`) index. -/
def phase (rowmajor : Bool) : Option PLetter → Bool → ℂ
  | some .Y, b => if rowmajor = b then Complex.I else -Complex.I
  | some .Z, b => if b then -1 else 1
  | _, _ => 1

/-- The entry of the data array. -/
def dataVal (rm : Bool) : List (Option PLetter) → ℕ → ℂ
  | [], _ => 1
  | p :: ps, j => phase rm p (j.testBit 0) * dataVal rm ps (j / 2)

theorem dataVal_append (rm : Bool) (l m : List (Option PLetter)) (j : ℕ) :
    dataVal rm (l ++ m) j = dataVal rm m (j / 2 ^ l.length) * dataVal rm l (j % 2 ^ l.length) := by
  induction l generalizing j with
  | nil => simp [dataVal]
  | cons p l ih =>
    rw [List.cons_append, dataVal, ih, dataVal, List.length_cons, Nat.div_div_eq_div_mul, pow_succ', mul_comm 2]
    have h1 : (j % (2 ^ l.length * 2)).testBit 0 = j.testBit 0 := by
      simp only [Nat.testBit_zero]
      rw [Nat.mod_mul_left_mod]
    have h2 : j % (2 ^ l.length * 2) / 2 = j / 2 % 2 ^ l.length := by
      rw [mul_comm, Nat.mod_mul_right_div_self]
    rw [h1, h2]; ring

theorem red_replicate (rm : Bool) (p : Option PLetter) (k : ℕ) :
    red (List.replicate k (tab 2 (fun b => phase rm p (b.testBit 0)))) =
      tab (2 ^ k) (dataVal rm (List.replicate k p)) := by
  induction k with
  | zero => simp [red, tab, dataVal]
  | succ k ih =>
    rw [List.replicate_succ', red_append, ih, red_singleton, kron_tab _ _ two_pos, ← pow_succ]
    apply tab_congr
    intro j hj
    rw [List.replicate_succ, dataVal, mul_comm]
    simp only [Nat.testBit_zero]
    simp

theorem dataVal_flat (rm : Bool) (p : Option PLetter) (h : ∀ b, phase rm p b = 1) (k j : ℕ) :
    dataVal rm (List.replicate k p) j = 1 := by
  induction k generalizing j with
  | zero => rfl
  | succ k ih => rw [List.replicate_succ, dataVal, h, ih, one_mul]

theorem runData_red (rm : Bool) (p : Option PLetter) (k : ℕ) :
    red (runData rm (p, k)).reverse = tab (2 ^ k) (dataVal rm (List.replicate k p)) := by
  have flat : (∀ b, phase rm p b = 1) →
      red [List.replicate (2 ^ k) 1] = tab (2 ^ k) (dataVal rm (List.replicate k p)) := by
    intro h
    rw [red_singleton]
    apply List.ext_getElem?
    intro i
    simp only [tab, List.getElem?_map, List.getElem?_replicate]
    by_cases hi : i < 2 ^ k
    · rw [List.getElem?_range hi]; simp [hi, dataVal_flat rm p h]
    · rw [List.getElem?_eq_none (by simpa using hi)]; simp [hi]
  match p with
  | none => exact flat (fun b => rfl)
  | some .X => exact flat (fun b => rfl)
  | some .Z =>
    rw [← red_replicate]
    simp only [runData, List.reverse_replicate]
    congr 2
  | some .Y =>
    rw [← red_replicate]
    simp only [runData, List.reverse_replicate]
    congr 2
    cases rm <;> simp [tab, phase, List.range_succ]

theorem runs_red (rm : Bool) (G : List (Option PLetter × ℕ)) :
    red (G.flatMap (runData rm)).reverse =
      tab (2 ^ (G.flatMap (fun g => List.replicate g.2 g.1)).length)
        (dataVal rm (G.flatMap (fun g => List.replicate g.2 g.1))) := by
  induction G with
  | nil => simp [red, tab, dataVal]
  | cons g G ih =>
    obtain ⟨p, k⟩ := g
    rw [List.flatMap_cons, List.flatMap_cons, List.reverse_append, red_append, ih, runData_red,
      kron_tab _ _ (by positivity), List.length_append, List.length_replicate, pow_add, mul_comm]
    apply tab_congr
    intro j _
    rw [dataVal_append]
    simp

theorem groupRuns_expand {α : Type} [DecidableEq α] (l : List α) :
    (groupRuns l).flatMap (fun g => List.replicate g.2 g.1) = l := by
  induction l with
  | nil => rfl
  | cons x l ih =>
    rw [groupRuns]
    match h : groupRuns l with
    | [] => rw [h] at ih; simp at ih; subst ih; simp
    | (y, k) :: r =>
      rw [h, List.flatMap_cons] at ih
      simp only
      split_ifs with e
      · subst e
        rw [List.flatMap_cons, List.replicate_succ, List.cons_append, ih]
      · rw [List.flatMap_cons, List.flatMap_cons, ih]; rfl

/-! ## Scaling the first of the shortest arrays -/

theorem kron_scale_left (c : ℂ) (a b : List ℂ) : kron (a.map (fun x => x * c)) b = (kron a b).map (fun x => x * c) := by
  have := kron_map c a b
  simpa only [mul_comm c] using this

theorem kron_scale_right (c : ℂ) (a b : List ℂ) : kron a (b.map (fun x => x * c)) = (kron a b).map (fun x => x * c) := by
  simp [kron, List.map_flatMap, mul_assoc, Function.comp_def]

theorem scaleFirst_red (c : ℂ) (m : ℕ) (l : List (List ℂ)) (h : ∃ a ∈ l, a.length = m) :
    red (scaleFirst c m l).reverse = (red l.reverse).map (fun x => x * c) := by
  induction l with
  | nil => simp at h
  | cons a l ih =>
    rw [scaleFirst]
    split_ifs with e
    · rw [List.reverse_cons, List.reverse_cons, red_append, red_append, red_singleton, red_singleton,
        kron_scale_right]
    · rw [List.reverse_cons, List.reverse_cons, red_append, red_append, ih, kron_scale_left]
      obtain ⟨b, hb, hm⟩ := h
      rcases List.mem_cons.1 hb with rfl | hb
      · exact absurd hm e
      · exact ⟨b, hb, hm⟩

theorem scaleFirst_mem (c : ℂ) (m : ℕ) (l : List (List ℂ)) (h : ∀ v ∈ l, v ≠ []) : ∀ v ∈ scaleFirst c m l, v ≠ [] := by
  induction l with
  | nil => simp [scaleFirst]
  | cons a l ih =>
    have hl := ih (fun w hw => h w (List.mem_cons_of_mem _ hw))
    have ha := h a (by simp)
    rw [scaleFirst]
    split_ifs with e
    · intro v hv
      rcases List.mem_cons.1 hv with rfl | hv
      · simpa using ha
      · exact h v (List.mem_cons_of_mem _ hv)
    · intro v hv
      rcases List.mem_cons.1 hv with rfl | hv
      · exact ha
      · exact hl v hv

theorem scaleFirst_length (c : ℂ) (m : ℕ) (l : List (List ℂ)) : (scaleFirst c m l).length = l.length := by
  induction l with
  | nil => rfl
  | cons a l ih => rw [scaleFirst]; split_ifs <;> simp [ih]

theorem minLength_ok (l : List (List ℂ)) (h : l ≠ []) : ∃ m, minLength l = .ok m ∧ ∃ a ∈ l, a.length = m := by
  cases l with
  | nil => exact absurd rfl h
  | cons a l =>
    refine ⟨_, rfl, ?_⟩
    clear h
    suffices ∀ (l : List (List ℂ)) (m : ℕ), l.foldl (fun m b => min m b.length) m = m ∨
        ∃ b ∈ l, b.length = l.foldl (fun m b => min m b.length) m by
      rcases this l a.length with h | ⟨b, hb, h⟩
      · exact ⟨a, by simp, h.symm⟩
      · exact ⟨b, by simp [hb], h⟩
    intro l
    induction l with
    | nil => intro m; simp
    | cons b l ih =>
      intro m
      rw [List.foldl_cons]
      rcases ih (min m b.length) with h | ⟨d, hd, h⟩
      · rw [h]
        rcases le_total m b.length with h' | h'
        · left; exact min_eq_left h'
        · right; exact ⟨b, by simp, (min_eq_right h').symm⟩
      · right; exact ⟨d, by simp [hd], h⟩

theorem runData_ne (rm : Bool) (g : Option PLetter × ℕ) : ∀ v ∈ runData rm g, v ≠ [] := by
  obtain ⟨p, k⟩ := g
  intro v hv
  have flat : v ∈ [List.replicate (2 ^ k) (1 : ℂ)] → v ≠ [] := by
    intro h; simp at h; subst h
    rw [← List.length_pos_iff]; simp
  match p with
  | none => exact flat hv
  | some .X => exact flat hv
  | some .Z => rw [List.eq_of_mem_replicate hv]; simp
  | some .Y => rw [List.eq_of_mem_replicate hv]; split_ifs <;> simp

theorem groupRuns_pos {α : Type} [DecidableEq α] (l : List α) : ∀ g ∈ groupRuns l, 0 < g.2 := by
  induction l with
  | nil => simp [groupRuns]
  | cons x l ih =>
    rw [groupRuns]
    match h : groupRuns l with
    | [] => simp
    | (y, k) :: r =>
      rw [h] at ih
      simp only
      split_ifs with e
      · intro g hg
        rcases List.mem_cons.1 hg with rfl | hg
        · simp
        · exact ih g (List.mem_cons_of_mem _ hg)
      · intro g hg
        rcases List.mem_cons.1 hg with rfl | hg
        · simp
        · exact ih g hg

theorem dataList_ne (rm : Bool) (ps : List (Option PLetter)) (h : ps ≠ []) : (groupRuns ps).flatMap (runData rm) ≠ [] := by
  have h1 : groupRuns ps ≠ [] := by
    intro h0; have := groupRuns_expand ps; rw [h0] at this; exact h this.symm
  obtain ⟨⟨p, k⟩, G, hG⟩ := List.exists_cons_of_ne_nil h1
  have hk : 0 < k := groupRuns_pos ps (p, k) (by rw [hG]; simp)
  rw [hG, List.flatMap_cons]
  have : runData rm (p, k) ≠ [] := by
    match p with
    | none => simp [runData]
    | some .X => simp [runData]
    | some .Z => simp [runData]; omega
    | some .Y => simp [runData]; omega
  simp [this]

/-! ## The list of letters -/

theorem setPaulis_length (ops : List POp) (l ps : List (Option PLetter)) (h : setPaulis l ops = .ok ps) :
    ps.length = l.length := by
  induction ops generalizing l with
  | nil => cases h; rfl
  | cons o ops ih =>
    rw [setPaulis] at h
    split_ifs at h with e
    rw [ih _ h, List.length_set]

theorem setPaulis_ok (ops : List POp) (l : List (Option PLetter)) (h : ∀ o ∈ ops, o.n < l.length) :
    ∃ ps, setPaulis l ops = .ok ps := by
  induction ops generalizing l with
  | nil => exact ⟨l, rfl⟩
  | cons o ops ih =>
    rw [setPaulis, if_pos (h o (by simp))]
    exact ih _ (fun x hx => by rw [List.length_set]; exact h x (List.mem_cons_of_mem _ hx))

/-- The product of the factors of the letters of a word. -/
def wordPhase (rm : Bool) (w : List POp) (j : ℕ) : ℂ := (w.map (fun o => phase rm (some o.p) (j.testBit o.n))).prod

theorem dataVal_set (rm : Bool) (ps : List (Option PLetter)) (k : ℕ) (p : PLetter) (h : ps[k]? = some none) (j : ℕ) :
    dataVal rm (ps.set k (some p)) j = dataVal rm ps j * phase rm (some p) (j.testBit k) := by
  induction ps generalizing k j with
  | nil => simp at h
  | cons q ps ih =>
    cases k with
    | zero =>
      simp only [List.getElem?_cons_zero, Option.some.injEq] at h
      subst h
      rw [List.set_cons_zero, dataVal, dataVal]
      rw [show phase rm none (j.testBit 0) = 1 from rfl]; ring
    | succ k =>
      rw [List.set_cons_succ, dataVal, dataVal, ih k (by simpa using h), Nat.testBit_succ]; ring

theorem setPaulis_val (rm : Bool) (w : List POp) (hw : NormalWord w) (l ps : List (Option PLetter))
    (hl : ∀ o ∈ w, l[o.n]? = some none) (h : setPaulis l w = .ok ps) (j : ℕ) :
    dataVal rm ps j = dataVal rm l j * wordPhase rm w j := by
  induction w generalizing l with
  | nil => cases h; simp [wordPhase]
  | cons o w ih =>
    rw [setPaulis] at h
    split_ifs at h with e
    have hw' := List.pairwise_cons.1 hw
    rw [ih hw'.2 _ (fun x hx => ?_) h, dataVal_set rm l o.n o.p (hl o (by simp)), wordPhase, wordPhase, List.map_cons,
      List.prod_cons]
    · ring
    · have := hw'.1 x hx
      rw [List.getElem?_set_ne (by omega)]
      exact hl x (List.mem_cons_of_mem _ hx)

theorem dataVal_replicate_none (rm : Bool) (n j : ℕ) : dataVal rm (List.replicate n none) j = 1 :=
  dataVal_flat rm none (fun _ => rfl) n j

/-- The data array of a simplified term. -/
theorem termToDataarray_ok (t : PTerm) (hw : NormalWord t.ops) (n : ℕ) (hn : 0 < n) (hq : ∀ o ∈ t.ops, o.n < n)
    (rm : Bool) : termToDataarray t n rm = .ok (tab (2 ^ n) (fun j => t.coeff * wordPhase rm t.ops j)) := by
  obtain ⟨ps, hps⟩ := setPaulis_ok t.ops (List.replicate n none) (by simpa using hq)
  have hlen : ps.length = n := by rw [setPaulis_length _ _ _ hps]; simp
  have hne : ps ≠ [] := by rw [← List.length_pos_iff]; omega
  obtain ⟨m, hm, hm'⟩ := minLength_ok _ (dataList_ne rm ps hne)
  rw [termToDataarray, hps]
  simp only [bind, Except.bind, hm]
  set L := scaleFirst t.coeff m ((groupRuns ps).flatMap (runData rm)) with hL
  have hLne : L ≠ [] := by
    rw [← List.length_pos_iff, hL, scaleFirst_length, List.length_pos_iff]; exact dataList_ne rm ps hne
  have hLv : ∀ v ∈ L, v ≠ [] := by
    apply scaleFirst_mem
    intro v hv
    obtain ⟨g, _, hg⟩ := List.mem_flatMap.1 hv
    exact runData_ne rm g v hg
  rw [length_cumsumFrom, List.length_map, kron1dRec_all L.reverse (by simpa using hLne)
    (fun v hv => hLv v (List.mem_reverse.1 hv)) _ (by omega), hL, scaleFirst_red _ _ _ hm', runs_red, groupRuns_expand,
    hlen]
  congr 1
  rw [tab, List.map_map, tab]
  apply List.map_congr_left
  intro j _
  simp only [Function.comp]
  rw [setPaulis_val rm t.ops hw _ ps (fun o ho => by simp [List.getElem?_replicate, hq o ho]) hps,
    dataVal_replicate_none]
  ring

end

end Blueqat
