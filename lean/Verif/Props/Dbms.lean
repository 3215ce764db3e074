import Verif.Rbm
import Verif.Spec.Rbm
import Mathlib.Data.List.Nodup
import Mathlib.Data.Set.Function
import Mathlib.Tactic.Tauto

/-!
# C66: layered QUBOs
-/

set_option linter.unusedSimpArgs false
set_option linter.unusedVariables false

namespace Blueqat

noncomputable section

open Spec

/-- The entries `dbms` writes, in order. -/
def dbmsPositions : List ℕ → ℕ → List (ℕ × ℕ)
  | a :: b :: rest, cc =>
    (List.range' cc a).flatMap (fun i => (List.range' (cc + a) b).map (fun j => (i, j))) ++
      dbmsPositions (b :: rest) (cc + a)
  | _, _ => []

theorem dbmsLayers_eq (w : ℝ) (rnd : ℕ → ℝ) : ∀ (sizes : List ℕ) (cc : ℕ) (s : NpMat × ℕ),
    dbmsLayers w rnd sizes cc s = (dbmsPositions sizes cc).foldl (fun s p => dbmsPut w rnd p.1 s p.2) s
  | [], _, _ => rfl
  | [_], _, _ => rfl
  | a :: b :: rest, cc, s => by
    rw [dbmsLayers, dbmsLayers_eq w rnd (b :: rest), dbmsPositions, List.foldl_append, List.foldl_flatMap]
    simp only [List.foldl_map, dbmsLayer]

theorem layerStart_zero (sizes : List ℕ) : layerStart sizes 0 = 0 := by simp [layerStart]

theorem layerStart_cons (a : ℕ) (sizes : List ℕ) (k : ℕ) : layerStart (a :: sizes) (k + 1) = a + layerStart sizes k := by
  simp [layerStart]

theorem mem_dbmsPositions : ∀ (sizes : List ℕ) (cc i j : ℕ), (i, j) ∈ dbmsPositions sizes cc ↔
    ∃ k, (cc + layerStart sizes k ≤ i ∧ i < cc + layerStart sizes k + sizes.getD k 0) ∧
      (cc + layerStart sizes (k + 1) ≤ j ∧ j < cc + layerStart sizes (k + 1) + sizes.getD (k + 1) 0)
  | [], cc, i, j => by simp [dbmsPositions]
  | [a], cc, i, j => by simp [dbmsPositions]
  | a :: b :: rest, cc, i, j => by
    rw [dbmsPositions, List.mem_append, mem_dbmsPositions (b :: rest)]
    constructor
    · rintro (h | ⟨k, h⟩)
      · simp only [List.mem_flatMap, List.mem_range'_1, List.mem_map, Prod.mk.injEq] at h
        obtain ⟨i', h1, j', h2, rfl, rfl⟩ := h
        refine ⟨0, ?_⟩
        simp only [layerStart_zero, layerStart_cons, List.getD_cons_zero, List.getD_cons_succ]
        omega
      · refine ⟨k + 1, ?_⟩
        simp only [layerStart_cons a, List.getD_cons_succ] at h ⊢
        omega
    · rintro ⟨k, h⟩
      match k with
      | 0 =>
        left
        simp only [layerStart_zero, layerStart_cons, List.getD_cons_zero, List.getD_cons_succ] at h
        simp only [List.mem_flatMap, List.mem_range'_1, List.mem_map, Prod.mk.injEq]
        exact ⟨i, by omega, j, by omega, rfl, rfl⟩
      | k + 1 =>
        right
        refine ⟨k, ?_⟩
        simp only [layerStart_cons a, List.getD_cons_succ] at h ⊢
        omega

theorem dbmsPut_fold_weight {w : ℝ} (hw : w ≠ 0) (rnd : ℕ → ℝ) (ps : List (ℕ × ℕ)) : ∀ s : NpMat × ℕ,
    let t := ps.foldl (fun s p => dbmsPut w rnd p.1 s p.2) s
    t.1.rows = s.1.rows ∧ t.1.cols = s.1.cols ∧
      ∀ i j, ((i, j) ∈ ps → t.1.ent i j = w) ∧ ((i, j) ∉ ps → t.1.ent i j = s.1.ent i j) := by
  induction ps with
  | nil => intro s; simp
  | cons p ps ih =>
    intro s
    obtain ⟨h1, h2, h3⟩ := ih (dbmsPut w rnd p.1 s p.2)
    simp only [List.foldl_cons]
    have e : dbmsPut w rnd p.1 s p.2 = (s.1.put p.1 p.2 w, s.2) := by rw [dbmsPut, if_neg hw]
    rw [e] at h1 h2 h3 ⊢
    refine ⟨h1, h2, fun i j => ⟨fun h => ?_, fun h => ?_⟩⟩
    · by_cases hm : (i, j) ∈ ps
      · exact (h3 i j).1 hm
      · rw [(h3 i j).2 hm]
        have : (i, j) = p := by simpa [hm] using h
        subst this
        simp [NpMat.put]
    · simp only [List.mem_cons, not_or] at h
      rw [(h3 i j).2 h.2]
      have : ¬ (i = p.1 ∧ j = p.2) := fun h' => h.1 (Prod.ext h'.1 h'.2)
      simp [NpMat.put, this]

theorem dbmsPut_fold_random (rnd : ℕ → ℝ) (ps : List (ℕ × ℕ)) : ∀ (s : NpMat × ℕ) (P : Set (ℕ × ℕ)) (src : ℕ × ℕ → ℕ),
    Set.InjOn src P → (∀ p ∈ P, src p < s.2 ∧ s.1.ent p.1 p.2 = rnd (src p)) →
    ∃ src' : ℕ × ℕ → ℕ,
      let t := ps.foldl (fun s p => dbmsPut 0 rnd p.1 s p.2) s
      t.1.rows = s.1.rows ∧ t.1.cols = s.1.cols ∧ Set.InjOn src' (P ∪ {p | p ∈ ps}) ∧
      (∀ p ∈ P ∪ {p | p ∈ ps}, t.1.ent p.1 p.2 = rnd (src' p)) ∧
      ∀ p, p ∉ ps → t.1.ent p.1 p.2 = s.1.ent p.1 p.2 := by
  induction ps with
  | nil => intro s P src hi h; exact ⟨src, rfl, rfl, by simpa using hi, by simpa using fun a b hab => (h (a, b) hab).2, by simp⟩
  | cons p ps ih =>
    intro s P src hi h
    have e : dbmsPut 0 rnd p.1 s p.2 = (s.1.put p.1 p.2 (rnd s.2), s.2 + 1) := by rw [dbmsPut, if_pos rfl]
    obtain ⟨src', h1, h2, h3, h4, h5⟩ := ih (dbmsPut 0 rnd p.1 s p.2) (P ∪ {p}) (fun q => if q = p then s.2 else src q)
      (by
        intro a ha b hb hab
        by_cases h1 : a = p <;> by_cases h2 : b = p <;> simp only [h1, h2, if_true, if_false] at hab ⊢
        · have := (h b (by simpa [h2] using hb)).1
          omega
        · have := (h a (by simpa [h1] using ha)).1
          omega
        · exact hi (by simpa [h1] using ha) (by simpa [h2] using hb) hab)
      (by
        intro q hq
        rw [e]
        by_cases hqp : q = p
        · subst hqp; simp [NpMat.put]
        · have hqP : q ∈ P := by simpa [hqp] using hq
          obtain ⟨a1, a2⟩ := h q hqP
          have : ¬ (q.1 = p.1 ∧ q.2 = p.2) := fun h' => hqp (Prod.ext h'.1 h'.2)
          simp only [hqp, if_false]
          refine ⟨by omega, ?_⟩
          simpa [NpMat.put, this] using a2)
    rw [e] at h1 h2 h4 h5
    refine ⟨src', ?_⟩
    simp only [List.foldl_cons]
    rw [e]
    have hset : P ∪ {q | q ∈ p :: ps} = P ∪ {p} ∪ {q | q ∈ ps} := by
      ext q; simp [or_assoc]; tauto
    rw [hset]
    refine ⟨h1, h2, h3, h4, fun q hq => ?_⟩
    simp only [List.mem_cons, not_or] at hq
    rw [h5 q hq.2]
    have : ¬ (q.1 = p.1 ∧ q.2 = p.2) := fun h' => hq.1 (Prod.ext h'.1 h'.2)
    simp [NpMat.put, this]

theorem layerStart_mono (sizes : List ℕ) (k : ℕ) : layerStart sizes (k + 1) = layerStart sizes k + sizes.getD k 0 := by
  induction sizes generalizing k with
  | nil => simp [layerStart]
  | cons a sizes ih =>
    cases k with
    | zero => simp [layerStart]
    | succ k => rw [layerStart_cons, ih, layerStart_cons, List.getD_cons_succ]; omega

theorem nextLayer_lt {sizes : List ℕ} {i j : ℕ} (h : NextLayer sizes i j) : i < j := by
  obtain ⟨k, h1, h2⟩ := h
  have := layerStart_mono sizes k
  have := h1.2
  have := h2.1
  omega

theorem mem_positions_iff (sizes : List ℕ) (i j : ℕ) : (i, j) ∈ dbmsPositions sizes 0 ↔ NextLayer sizes i j := by
  rw [mem_dbmsPositions]
  simp [NextLayer, InLayer]

/-- **C66, given weight.** Every layer is connected to the next and to nothing else: all those couplings are `w`, the
diagonal is 1/2, and everything else, the lower triangle in particular, is 0. -/
theorem C66_weight (sizes : List ℕ) (hne : sizes ≠ []) (w : ℝ) (hw : w ≠ 0) (rnd : ℕ → ℝ) :
    ∃ M, wqDbms sizes w rnd = .ok M ∧ M.rows = sizes.sum ∧ M.cols = sizes.sum ∧
      (∀ i < sizes.sum, M.ent i i = 1 / 2) ∧
      (∀ i j, NextLayer sizes i j → M.ent i j = w) ∧
      ∀ i j, i ≠ j → ¬ NextLayer sizes i j → M.ent i j = 0 := by
  obtain ⟨h1, h2, h3⟩ := dbmsPut_fold_weight hw rnd (dbmsPositions sizes 0) (npDiag (List.replicate sizes.sum 0.5), 0)
  refine ⟨_, by simp only [wqDbms, if_neg hne, if_neg hw, dbmsLayers_eq]; rfl, ?_, ?_, fun i hi => ?_, fun i j hij => ?_,
    fun i j hij hn => ?_⟩
  · rw [h1]; simp [npDiag]
  · rw [h2]; simp [npDiag]
  · rw [(h3 i i).2 (fun h => absurd (nextLayer_lt ((mem_positions_iff _ _ _).1 h)) (lt_irrefl _))]
    simp only [npDiag, if_true, List.getD_eq_getElem?_getD, List.getElem?_replicate, hi, Option.getD_some]
    norm_num
  · exact (h3 i j).1 ((mem_positions_iff _ _ _).2 hij)
  · rw [(h3 i j).2 (fun h => hn ((mem_positions_iff _ _ _).1 h))]
    simp [npDiag, hij]

/-- **C66, random weights.** The same places are filled with random numbers, each with another draw: `src` gives the number of
the draw for each place and is injective. All other entries are 0. -/
theorem C66_random (sizes : List ℕ) (hne : sizes ≠ []) (rnd : ℕ → ℝ) :
    ∃ M, wqDbms sizes 0 rnd = .ok M ∧ M.rows = sizes.sum ∧ M.cols = sizes.sum ∧
      (∃ src : ℕ × ℕ → ℕ,
        Set.InjOn src {p | (p.1 = p.2 ∧ p.1 < sizes.sum) ∨ NextLayer sizes p.1 p.2} ∧
        ∀ i j, (i = j ∧ i < sizes.sum) ∨ NextLayer sizes i j → M.ent i j = rnd (src (i, j))) ∧
      ∀ i j, i ≠ j → ¬ NextLayer sizes i j → M.ent i j = 0 := by
  obtain ⟨src, h1, h2, h3, h4, h5⟩ := dbmsPut_fold_random rnd (dbmsPositions sizes 0)
    (npDiag ((List.range sizes.sum).map rnd), sizes.sum) {p | p.1 = p.2 ∧ p.1 < sizes.sum} Prod.fst
    (by
      rintro ⟨a, b⟩ ⟨ha, -⟩ ⟨c, d⟩ ⟨hc, -⟩ h
      simp only at ha hc h
      subst ha hc h
      rfl)
    (by
      rintro ⟨a, b⟩ ⟨ha, hb⟩
      simp only at ha hb
      subst ha
      refine ⟨hb, ?_⟩
      simp [npDiag, List.getD_eq_getElem?_getD, List.getElem?_range hb])
  have hset : ({p | p.1 = p.2 ∧ p.1 < sizes.sum} ∪ {p | p ∈ dbmsPositions sizes 0} : Set (ℕ × ℕ)) =
      {p | (p.1 = p.2 ∧ p.1 < sizes.sum) ∨ NextLayer sizes p.1 p.2} := by
    ext ⟨a, b⟩
    simp [mem_positions_iff]
  rw [hset] at h3 h4
  refine ⟨_, by simp only [wqDbms, if_neg hne, if_true, dbmsLayers_eq], ?_, ?_, ⟨src, h3, fun i j h => h4 (i, j) h⟩,
    fun i j hij hn => ?_⟩
  · rw [h1]; simp [npDiag]
  · rw [h2]; simp [npDiag]
  · rw [h5 (i, j) (fun h => hn ((mem_positions_iff _ _ _).1 h))]
    simp [npDiag, hij]

/-- **C66, no layers.** -/
theorem C66_empty (w : ℝ) (rnd : ℕ → ℝ) : wqDbms [] w rnd = .error .typeError := rfl

/-- **C66, `rands`.** An upper triangular matrix, each of whose entries on or above the diagonal is another draw. -/
theorem C66_rands (n : ℕ) (rnd : ℕ → ℝ) :
    (wqRands n rnd).rows = n ∧ (wqRands n rnd).cols = n ∧ (∀ i j, j < i → (wqRands n rnd).ent i j = 0) ∧
    ∃ src : ℕ × ℕ → ℕ, Set.InjOn src {p | p.1 ≤ p.2 ∧ p.2 < n} ∧
      ∀ i j, i ≤ j → j < n → (wqRands n rnd).ent i j = rnd (src (i, j)) := by
  refine ⟨rfl, rfl, fun i j h => ?_, fun p => p.1 * n + p.2, ?_, fun i j h _ => ?_⟩
  · simp only [wqRands, NpMat.triu]
    rw [if_neg (by omega)]
  · rintro ⟨a, b⟩ ⟨-, hb⟩ ⟨c, d⟩ ⟨-, hd⟩ h
    simp only at hb hd h
    have hn : 0 < n := by omega
    have h1 := congrArg (· / n) h
    have h2 := congrArg (· % n) h
    simp only [Nat.mul_comm _ n, Nat.mul_add_div hn, Nat.div_eq_of_lt hb, Nat.div_eq_of_lt hd, Nat.mul_add_mod,
      Nat.mod_eq_of_lt hb, Nat.mod_eq_of_lt hd] at h1 h2
    simp at h1
    rw [h1, h2]
  · simp only [wqRands, NpMat.triu]
    rw [if_pos (by omega)]

/-- Two layers make a restricted Boltzmann machine: only visible and hidden units are coupled. -/
theorem C66_two_layers (a b : ℕ) (w : ℝ) (rnd : ℕ → ℝ) :
    ∃ M, wqDbms [a, b] w rnd = .ok M ∧ M.rows = a + b ∧ M.cols = a + b ∧ TwoLayer (a + b) a M.ent := by
  have key : ∀ i j, i ≠ j → j < a + b → ¬ (i < a ∧ a ≤ j) → ¬ NextLayer [a, b] i j := by
    rintro i j hij hj hn ⟨k, h1, h2⟩
    match k with
    | 0 =>
      simp [InLayer, layerStart] at h1 h2
      omega
    | k + 1 =>
      obtain ⟨h3, h4⟩ := h2
      have e : ([a, b] : List ℕ).getD (k + 1 + 1) 0 = 0 := by simp [List.getD]
      rw [e] at h4
      omega
  by_cases hw : w = 0
  · subst hw
    obtain ⟨M, h1, h2, h3, -, h4⟩ := C66_random [a, b] (by simp) rnd
    exact ⟨M, h1, by simpa using h2, by simpa using h3, fun i hi j hj hij hn => h4 i j hij (key i j hij hj hn)⟩
  · obtain ⟨M, h1, h2, h3, -, -, h4⟩ := C66_weight [a, b] (by simp) w hw rnd
    exact ⟨M, h1, by simpa using h2, by simpa using h3, fun i hi j hj hij hn => h4 i j hij (key i j hij hj hn)⟩

/-- `dbms([2, 1, 2], 7)`: unit 0 is coupled to unit 2, unit 2 to unit 4, and unit 0 not to unit 3. -/
example : NextLayer [2, 1, 2] 0 2 ∧ NextLayer [2, 1, 2] 2 4 ∧ ¬ NextLayer [2, 1, 2] 0 3 := by
  refine ⟨⟨0, by simp [InLayer, layerStart]⟩, ⟨1, by simp [InLayer, layerStart]⟩, ?_⟩
  rintro ⟨k, h1, h2⟩
  match k with
  | 0 => simp [InLayer, layerStart] at h2
  | 1 => simp [InLayer, layerStart] at h1
  | k + 2 => simp [InLayer, layerStart] at h2

end

end Blueqat
