import Verif.QuboLemmas

/-!
# Property C48: a QUBO as an Ising model
-/

set_option linter.unusedSimpArgs false
set_option linter.unusedVariables false

namespace Blueqat

open Spec Finset

noncomputable section

/-- Loops that only write single entries. -/
theorem foldlM_put {α : Type} (f : NpMat → α → Except PyErr NpMat) (i j : α → ℕ) (v : α → ℝ) (l : List α)
    (hl : l.Pairwise (fun a b => ¬ (i a = i b ∧ j a = j b)))
    (h : ∀ x ∈ l, ∀ m, f m x = .ok (m.put (i x) (j x) (v x))) (m : NpMat) :
    ∃ m', l.foldlM f m = .ok m' ∧ m'.rows = m.rows ∧ m'.cols = m.cols ∧
      (∀ x ∈ l, m'.ent (i x) (j x) = v x) ∧
      ∀ a b, (∀ x ∈ l, ¬ (a = i x ∧ b = j x)) → m'.ent a b = m.ent a b := by
  induction l generalizing m with
  | nil => exact ⟨m, rfl, rfl, rfl, by simp, by simp⟩
  | cons x l ih =>
    obtain ⟨h1, h2⟩ := List.pairwise_cons.1 hl
    obtain ⟨m', e1, e2, e3, e4, e5⟩ := ih h2 (fun y hy => h y (by simp [hy])) (m.put (i x) (j x) (v x))
    refine ⟨m', ?_, e2, e3, ?_, ?_⟩
    · rw [List.foldlM_cons, h x (by simp)]; exact e1
    · intro y hy
      rcases List.mem_cons.1 hy with rfl | hy
      · rw [e5 _ _ (fun z hz => h1 z hz)]; simp [NpMat.put]
      · exact e4 y hy
    · intro a b hab
      rw [e5 a b (fun z hz => hab z (by simp [hz]))]
      have := hab x (by simp)
      simp [NpMat.put, this]

theorem foldlM_nested {σ α β : Type} (f : σ → α → β → Except PyErr σ) (l : List α) (g : α → List β) (s : σ) :
    l.foldlM (fun s a => (g a).foldlM (fun s b => f s a b) s) s =
      (l.flatMap (fun a => (g a).map (fun b => (a, b)))).foldlM (fun s p => f s p.1 p.2) s := by
  induction l generalizing s with
  | nil => rfl
  | cons a l ih =>
    rw [List.foldlM_cons, List.flatMap_cons, List.foldlM_append, List.foldlM_map]
    congr 1
    funext s'
    exact ih s'

theorem qiUpper_ok (q : Rows) (n : ℕ) (hn : n = q.length) (hq : ∀ r ∈ q, n ≤ r.length) :
    ∃ J, qiUpper q n = .ok J ∧ J.rows = n ∧ J.cols = n ∧
      (∀ i j, i < j → j < n → J.ent i j = entryOf q i j / 4) := by
  have key := foldlM_put (f := fun (J : NpMat) (p : ℕ × ℕ) => do
      let v ← q.entry p.1 p.2
      pure (J.put p.1 p.2 (v / 4))) (i := Prod.fst) (j := Prod.snd)
    (v := fun p => entryOf q p.1 p.2 / 4)
    ((List.range n).flatMap (fun a => (List.range' (a + 1) (n - (a + 1))).map (fun b => (a, b))))
    (by
      have : ((List.range n).flatMap (fun a => (List.range' (a + 1) (n - (a + 1))).map (fun b => (a, b)))).Nodup := by
        rw [List.nodup_flatMap]
        refine ⟨fun a _ => List.Nodup.map (fun x y h => by simpa using h) List.nodup_range', ?_⟩
        refine List.nodup_range.imp (fun {a b} hab => ?_)
        intro p hp hp'
        simp only [List.mem_map] at hp hp'
        obtain ⟨_, -, rfl⟩ := hp
        obtain ⟨_, -, h⟩ := hp'
        exact hab (by simpa using (congrArg Prod.fst h).symm)
      exact List.Pairwise.imp (fun h hh => h (Prod.ext hh.1 hh.2)) this)
    (by
      intro p hp m
      simp only [List.mem_flatMap, List.mem_map, List.mem_range, List.mem_range'_1] at hp
      obtain ⟨a, ha, b, hb, rfl⟩ := hp
      show (q.entry a b >>= _) = _
      rw [quboRows_entry hq (by omega) (by omega : b < n)]; rfl) ⟨n, n, fun _ _ => 1⟩
  obtain ⟨J, e1, e2, e3, e4, -⟩ := key
  refine ⟨J, ?_, e2, e3, ?_⟩
  · rw [qiUpper]
    rw [← e1]
    exact foldlM_nested (fun (J : NpMat) i j => do
      let v ← q.entry i j
      pure (J.put i j (v / 4))) _ _ _
  · intro i j hij hj
    refine e4 (i, j) ?_
    simp only [List.mem_flatMap, List.mem_map, List.mem_range, List.mem_range'_1]
    exact ⟨i, by omega, j, by omega, rfl⟩

theorem qiDiag_ok (q : Rows) (n : ℕ) (hn : n = q.length) (hq : ∀ r ∈ q, n ≤ r.length) (J : NpMat) :
    ∃ J', qiDiag q n J = .ok J' ∧ J'.rows = J.rows ∧ J'.cols = J.cols ∧
      (∀ i j, i ≠ j → J'.ent i j = J.ent i j) ∧
      ∀ i < n, J'.ent i i = entryOf q i i / 2 + ∑ j ∈ range n, if i = j then 0 else J.ent i j := by
  have key : ∀ (l : List ℕ), l.Nodup → (∀ i ∈ l, i < n) → ∀ J : NpMat, ∃ J',
      l.foldlM (fun (J : NpMat) i => do
        let s ← (List.range n).foldlM (fun s j => do
          if i = j then
            let v ← q.entry i i
            pure (s + v * 0.5)
          else pure (s + J.ent i j)) (0 : ℝ)
        pure (J.put i i s)) J = .ok J' ∧ J'.rows = J.rows ∧ J'.cols = J.cols ∧
      (∀ i j, i ≠ j → J'.ent i j = J.ent i j) ∧ (∀ i, i ∉ l → J'.ent i i = J.ent i i) ∧
      ∀ i ∈ l, J'.ent i i = entryOf q i i / 2 + ∑ j ∈ range n, if i = j then 0 else J.ent i j := by
    intro l
    induction l with
    | nil => intro _ _ J; exact ⟨J, rfl, rfl, rfl, by simp, by simp, by simp⟩
    | cons i l ih =>
      intro hnd hlt J
      obtain ⟨hnot, hnd'⟩ := List.nodup_cons.1 hnd
      have hi : i < n := hlt i (by simp)
      obtain ⟨s, h1, -, h2⟩ := foldlM_sum (f := fun (s : ℝ) j => do
          if i = j then
            let v ← q.entry i i
            pure (s + v * 0.5)
          else pure (s + J.ent i j)) (Inv := fun _ => True) (val := fun s => s)
        (g := fun j => if i = j then entryOf q i i / 2 else J.ent i j) (List.range n) (by
          intro j hj s _
          by_cases hij : i = j
          · refine ⟨s + entryOf q i i * 0.5, ?_, trivial, ?_⟩
            · rw [if_pos hij, quboRows_entry hq (by omega) hi]; rfl
            · rw [if_pos hij]; norm_num; ring
          · refine ⟨s + J.ent i j, ?_, trivial, ?_⟩
            · rw [if_neg hij]; rfl
            · rw [if_neg hij]) 0 trivial
      obtain ⟨J', e1, e2, e3, e4, e5, e6⟩ := ih hnd' (fun x hx => hlt x (by simp [hx])) (J.put i i s)
      have hoff : ∀ a b, a ≠ b → (J.put i i s).ent a b = J.ent a b := by
        intro a b hab
        have : ¬ (a = i ∧ b = i) := fun h => hab (h.1.trans h.2.symm)
        simp [NpMat.put, this]
      refine ⟨J', ?_, e2, e3, ?_, ?_, ?_⟩
      · rw [List.foldlM_cons, h1]; exact e1
      · intro a b hab; rw [e4 a b hab, hoff a b hab]
      · intro a ha
        have hai : a ≠ i := fun h => ha (by simp [h])
        rw [e5 a (fun h => ha (by simp [h]))]
        simp [NpMat.put, hai]
      · intro a ha
        rcases List.mem_cons.1 ha with rfl | ha
        · rw [e5 a hnot]
          have : (J.put a a s).ent a a = s := by simp [NpMat.put]
          beta_reduce at h2
          rw [this, h2, zero_add, list_range_sum, ← Finset.add_sum_erase _ _ (mem_range.2 hi),
            ← Finset.add_sum_erase (range n) (fun j => if a = j then 0 else J.ent a j) (mem_range.2 hi)]
          simp only [if_true, zero_add]
          congr 1
          refine Finset.sum_congr rfl (fun j hj => ?_)
          have := (Finset.mem_erase.1 hj).1
          rw [if_neg (Ne.symm this), if_neg (Ne.symm this)]
        · rw [e6 a ha]
          congr 1
          refine Finset.sum_congr rfl (fun j _ => ?_)
          split_ifs with h
          · rfl
          · exact hoff a j h
  obtain ⟨J', e1, e2, e3, e4, -, e6⟩ := key (List.range n) List.nodup_range (by simp) J
  exact ⟨J', e1, e2, e3, e4, fun i hi => e6 i (by simpa using hi)⟩

theorem qi_ok (q : Rows) (hq : ∀ r ∈ q, q.length ≤ r.length) : ∃ J ep, qi q = .ok (J, ep) ∧ J.rows = q.length ∧
    J.cols = q.length ∧ (∀ i j, i < j → j < q.length → J.ent i j = entryOf q i j / 4) ∧
    (∀ i j, j < i → J.ent i j = 0) ∧
    (∀ i < q.length, J.ent i i = entryOf q i i / 2 + ∑ j ∈ range q.length,
      if i < j then entryOf q i j / 4 else if j < i then entryOf q j i / 4 else 0) ∧
    ep = ∑ i ∈ range q.length, (J.ent i i - ∑ j ∈ range q.length, if i < j then entryOf q i j / 4 else 0) := by
  obtain ⟨J1, a1, a2, a3, a4⟩ := qiUpper_ok q q.length rfl hq
  obtain ⟨J2, b1, b2, b3, b4, b5⟩ := qiDiag_ok q q.length rfl hq ((J1.triu 0).add (J1.triu 1).transpose)
  have hup : ∀ i j, i < j → j < q.length → J2.ent i j = entryOf q i j / 4 := by
    intro i j hij hj
    rw [b4 i j hij.ne]
    simp [NpMat.add, NpMat.triu, NpMat.transpose, hij.le, a4 i j hij hj, show ¬ (j + 1 ≤ i) by omega]
  refine ⟨J2.triu 0, qiOffset q.length J2, ?_, ?_, ?_, ?_, ?_, ?_, ?_⟩
  · simp only [qi, a1, b1, bind, Except.bind]; rfl
  · show J2.rows = _; rw [b2]; exact a2
  · show J2.cols = _; rw [b3]; exact a3
  · intro i j hij hj
    simp [NpMat.triu, hij.le, hup i j hij hj]
  · intro i j hij
    simp [NpMat.triu, not_le.2 hij]
  · intro i hi
    simp only [NpMat.triu, add_zero, le_refl, if_true]
    rw [b5 i hi]
    congr 1
    refine Finset.sum_congr rfl (fun j hj => ?_)
    have hj' : j < q.length := by simpa using hj
    rcases lt_trichotomy i j with h | h | h
    · simp [NpMat.add, NpMat.triu, NpMat.transpose, h, h.ne, h.le, a4 i j h hj', show ¬ (j + 1 ≤ i) by omega]
    · simp [h]
    · simp [NpMat.add, NpMat.triu, NpMat.transpose, h, h.ne', not_le.2 h, not_lt.2 h.le, a4 j i h hi]
  · rw [qiOffset, foldl_sum (g := fun i => J2.ent i i +
        ((List.range' (i + 1) (q.length - (i + 1))).map (fun j => -J2.ent i j)).sum), list_range_sum, zero_add]
    · refine Finset.sum_congr rfl (fun i hi => ?_)
      rw [list_range'_sum]
      simp only [NpMat.triu, add_zero, le_refl, if_true]
      rw [sub_eq_add_neg, ← Finset.sum_neg_distrib]
      congr 1
      refine Finset.sum_congr rfl (fun j hj => ?_)
      have hj' : j < q.length := by simpa using hj
      by_cases h : i < j
      · rw [if_pos h, if_pos (show i + 1 ≤ j from h), hup i j h hj']
      · rw [if_neg h, if_neg (show ¬ (i + 1 ≤ j) from h), neg_zero]
    · intro s i
      rw [foldl_sum (g := fun j => -J2.ent i j)]
      · ring
      · intro s j; ring

theorem ei_eq (q : NpInts) (J : NpMat) : ei q J = isingEnergy q.dim J.ent (fun i => q.ent i) := by
  rw [ei, foldl_sum (g := fun i => (q.ent i : ℝ) * J.ent i i +
      ((List.range' (i + 1) (q.dim - (i + 1))).map (fun k => (q.ent i : ℝ) * q.ent k * J.ent i k)).sum), list_range_sum,
    zero_add, Finset.sum_add_distrib, isingEnergy]
  · congr 1
    · exact Finset.sum_congr rfl (fun i _ => mul_comm _ _)
    · refine Finset.sum_congr rfl (fun i _ => ?_)
      rw [list_range'_sum]
      refine Finset.sum_congr rfl (fun j _ => ?_)
      simp only [Nat.succ_le_iff]
      split_ifs
      · ring
      · rfl
  · intro s i; ring

theorem upper_split (n : ℕ) (Q : ℕ → ℕ → ℝ) (b : ℕ → ℝ) (hb : ∀ i < n, b i = 0 ∨ b i = 1) : upperEnergy n Q b =
    ∑ i ∈ range n, Q i i * b i + ∑ i ∈ range n, ∑ j ∈ range n, if i < j then Q i j * b i * b j else 0 := by
  have hbb : ∀ i < n, b i * b i = b i := by
    intro i hi; rcases hb i hi with h | h <;> simp [h]
  rw [upperEnergy, sum_square]
  congr 1
  · refine Finset.sum_congr rfl (fun i hi => ?_)
    simp [mul_assoc, hbb i (by simpa using hi)]
  · refine Finset.sum_congr rfl (fun i _ => Finset.sum_congr rfl (fun j _ => ?_))
    by_cases h : i < j
    · simp [h, h.le, not_le.2 h]
    · simp [h]

/-- The algebra of C48. -/
theorem ising_upper (n : ℕ) (Q J : ℕ → ℕ → ℝ) (ep : ℝ) (b : ℕ → ℝ) (hb : ∀ i < n, b i = 0 ∨ b i = 1)
    (h1 : ∀ i j, i < j → j < n → J i j = Q i j / 4)
    (h2 : ∀ i < n, J i i = Q i i / 2 + ∑ j ∈ range n, if i < j then Q i j / 4 else if j < i then Q j i / 4 else 0)
    (h3 : ep = ∑ i ∈ range n, (J i i - ∑ j ∈ range n, if i < j then Q i j / 4 else 0)) :
    isingEnergy n J (fun i => 2 * b i - 1) + ep = upperEnergy n Q b := by
  rw [upper_split n Q b hb, isingEnergy, h3, Finset.sum_sub_distrib]
  have e1 : ∑ i ∈ range n, J i i * (2 * b i - 1) + ∑ i ∈ range n, J i i = ∑ i ∈ range n, Q i i * b i +
      ∑ i ∈ range n, ∑ j ∈ range n, if i < j then Q i j / 2 * (b i + b j) else 0 := by
    rw [← Finset.sum_add_distrib]
    have e2 : ∀ i ∈ range n, J i i * (2 * b i - 1) + J i i = Q i i * b i +
        ∑ j ∈ range n, (if i < j then Q i j / 4 else if j < i then Q j i / 4 else 0) * (2 * b i) := by
      intro i hi
      rw [← Finset.sum_mul, h2 i (by simpa using hi)]; ring
    rw [Finset.sum_congr rfl e2, Finset.sum_add_distrib, sum_square]
    simp only [lt_irrefl, if_false, zero_mul, Finset.sum_const_zero, zero_add]
    congr 1
    refine Finset.sum_congr rfl (fun i _ => Finset.sum_congr rfl (fun j _ => ?_))
    by_cases h : i < j
    · simp only [h, if_true, not_lt.2 h.le, if_false]; ring
    · simp [h]
  have e3 : ∑ i ∈ range n, ∑ j ∈ range n, (if i < j then J i j * (2 * b i - 1) * (2 * b j - 1) else 0) -
      ∑ i ∈ range n, ∑ j ∈ range n, (if i < j then Q i j / 4 else 0) +
      ∑ i ∈ range n, ∑ j ∈ range n, (if i < j then Q i j / 2 * (b i + b j) else 0) =
      ∑ i ∈ range n, ∑ j ∈ range n, if i < j then Q i j * b i * b j else 0 := by
    rw [← Finset.sum_sub_distrib, ← Finset.sum_add_distrib]
    refine Finset.sum_congr rfl (fun i _ => ?_)
    rw [← Finset.sum_sub_distrib, ← Finset.sum_add_distrib]
    refine Finset.sum_congr rfl (fun j hj => ?_)
    by_cases h : i < j
    · simp only [h, if_true, h1 i j h (by simpa using hj)]; ring
    · simp [h]
  rw [← e3]
  linarith [e1]

/-- C48. For every QUBO `qi` gives couplings and an offset so that the Ising energy, as computed by `Ei`, plus the offset
is the energy of the upper triangle of the QUBO, for every assignment of bits `b` and the spins `2b - 1`. -/
theorem C48_qi (q : Rows) (hq : ∀ r ∈ q, q.length ≤ r.length) :
    ∃ J ep, qi q = .ok (J, ep) ∧ J.rows = q.length ∧ J.cols = q.length ∧
      ∀ s : NpInts, s.dim = q.length → (∀ i < s.dim, s.ent i = 1 ∨ s.ent i = -1) →
        ei s J + ep = upperEnergy q.length (entryOf q) (fun i => if s.ent i = 1 then 1 else 0) := by
  obtain ⟨J, ep, h1, h2, h3, h4, h5, h6, h7⟩ := qi_ok q hq
  refine ⟨J, ep, h1, h2, h3, ?_⟩
  intro s hs hspin
  rw [ei_eq, hs, ← ising_upper q.length (entryOf q) J.ent ep
    (fun i => if s.ent i = 1 then 1 else 0) (by intro i _; by_cases h : s.ent i = 1 <;> simp [h]) h4 h6 h7]
  congr 1
  rw [isingEnergy, isingEnergy]
  have e : ∀ i ∈ range q.length, (s.ent i : ℝ) = 2 * (if s.ent i = 1 then 1 else 0) - 1 := by
    intro i hi
    rcases hspin i (by simpa [hs] using hi) with h | h <;> norm_num [h]
  congr 1
  · exact Finset.sum_congr rfl (fun i hi => by rw [← e i hi])
  · refine Finset.sum_congr rfl (fun i hi => Finset.sum_congr rfl (fun j hj => ?_))
    rw [← e i hi, ← e j hj]

theorem foldlM_error {σ α : Type} (f : σ → α → Except PyErr σ) (e : PyErr) (l : List α)
    (h1 : ∀ x ∈ l, ∀ s e', f s x = .error e' → e' = e) (h2 : ∃ x ∈ l, ∀ s, ∃ e', f s x = .error e') (s : σ) :
    l.foldlM f s = .error e := by
  induction l generalizing s with
  | nil => simp at h2
  | cons x l ih =>
    rw [List.foldlM_cons]
    cases hx : f s x with
    | error e' => rw [h1 x (by simp) s e' hx]; rfl
    | ok s' =>
      refine ih (fun y hy => h1 y (by simp [hy])) ?_ s'
      obtain ⟨y, hy, h⟩ := h2
      rcases List.mem_cons.1 hy with rfl | hy
      · obtain ⟨e', he⟩ := h s; rw [he] at hx; cases hx
      · exact ⟨y, hy, h⟩

theorem foldlM_only {σ α : Type} (f : σ → α → Except PyErr σ) (e : PyErr) (l : List α)
    (h1 : ∀ x ∈ l, ∀ s e', f s x = .error e' → e' = e) (s : σ) (e' : PyErr) (h : l.foldlM f s = .error e') :
    e' = e := by
  induction l generalizing s with
  | nil => cases h
  | cons x l ih =>
    rw [List.foldlM_cons] at h
    cases hx : f s x with
    | error e'' =>
      rw [hx] at h; cases h
      exact h1 x (by simp) s _ hx
    | ok s' =>
      rw [hx] at h
      exact ih (fun y hy => h1 y (by simp [hy])) s' h

theorem entry_error (q : Rows) (i j : ℕ) (e : PyErr) (h : q.entry i j = .error e) : e = .indexError := by
  rw [Rows.entry] at h
  split at h
  · cases h; rfl
  · split at h
    · cases h; rfl
    · cases h

/-- C48. A QUBO with a row that is too short is rejected. -/
theorem C48_short_row (q : Rows) (hq : ∃ r ∈ q, r.length < q.length) : qi q = .error .indexError := by
  obtain ⟨r, hr, hlen⟩ := hq
  obtain ⟨i, hi, rfl⟩ := List.getElem_of_mem hr
  have hent : ∀ j, q[i].length ≤ j → q.entry i j = .error .indexError := by
    intro j hj
    have h1 : q[i]? = some q[i] := List.getElem?_eq_getElem hi
    simp [Rows.entry, h1, List.getElem?_eq_none hj]
  have hU : ∀ e, qiUpper q q.length = .error e → e = .indexError := by
    intro e he
    refine foldlM_only _ _ _ (fun x _ J e' h => foldlM_only _ _ _ (fun y _ J e'' h' => ?_) _ _ h) _ _ he
    cases hv : q.entry x y with
    | error e3 => rw [hv] at h'; cases h'; exact entry_error _ _ _ _ hv
    | ok v => rw [hv] at h'; cases h'
  cases hu : qiUpper q q.length with
  | error e =>
    rw [hU e hu] at hu
    simp only [qi, hu]; rfl
  | ok J =>
    have hD : ∀ J, qiDiag q q.length J = .error .indexError := by
      intro J
      rw [qiDiag]
      refine foldlM_error _ _ _ (fun x _ J e' h => ?_) ⟨i, by simpa using hi, fun J => ?_⟩ _
      · cases hv : (List.range q.length).foldlM (fun (s : ℝ) j => do
          if x = j then
            let v ← q.entry x x
            pure (s + v * 0.5)
          else pure (s + J.ent x j)) (0 : ℝ) with
        | ok s => rw [hv] at h; cases h
        | error e3 =>
          rw [hv] at h; cases h
          refine foldlM_only _ _ _ (fun y _ s e4 h4 => ?_) _ _ hv
          split at h4
          · cases hw : q.entry x x with
            | error e5 => rw [hw] at h4; cases h4; exact entry_error _ _ _ _ hw
            | ok v => rw [hw] at h4; cases h4
          · cases h4
      · by_cases hlast : i + 1 = q.length
        · refine ⟨.indexError, ?_⟩
          have : (List.range q.length).foldlM (fun (s : ℝ) j => do
              if i = j then
                let v ← q.entry i i
                pure (s + v * 0.5)
              else pure (s + J.ent i j)) (0 : ℝ) = .error .indexError := by
            refine foldlM_error _ _ _ (fun y _ s e4 h4 => ?_) ⟨i, by simpa using hi, fun s => ?_⟩ _
            · split at h4
              · cases hw : q.entry i i with
                | error e5 => rw [hw] at h4; cases h4; exact entry_error _ _ _ _ hw
                | ok v => rw [hw] at h4; cases h4
              · cases h4
            · rw [if_pos rfl, hent i (by omega)]; exact ⟨_, rfl⟩
          rw [this]; rfl
        · exfalso
          have : qiUpper q q.length = .error .indexError := by
            rw [qiUpper]
            refine foldlM_error _ _ _ (fun x _ J e' h => ?_) ⟨i, by simpa using hi, fun J => ⟨.indexError, ?_⟩⟩ _
            · refine foldlM_only _ _ _ (fun y _ J e'' h' => ?_) _ _ h
              cases hv : q.entry x y with
              | error e3 => rw [hv] at h'; cases h'; exact entry_error _ _ _ _ hv
              | ok v => rw [hv] at h'; cases h'
            · refine foldlM_error _ _ _ (fun y _ J e'' h' => ?_)
                ⟨q.length - 1, by simp only [List.mem_range'_1]; omega, fun J => ?_⟩ _
              · cases hv : q.entry i y with
                | error e3 => rw [hv] at h'; cases h'; exact entry_error _ _ _ _ hv
                | ok v => rw [hv] at h'; cases h'
              · rw [hent _ (by omega)]; exact ⟨_, rfl⟩
          rw [this] at hu; cases hu
    simp only [qi, hu, bind, Except.bind, hD]

/-- The hypotheses are met: two spins. -/
example : ∃ J ep, qi [[1, 2], [0, 4]] = .ok (J, ep) ∧
    ei ⟨2, fun _ => 1⟩ J + ep = 7 ∧ ei ⟨2, fun i => if i = 0 then 1 else -1⟩ J + ep = 1 := by
  obtain ⟨J, ep, h1, -, -, h⟩ := C48_qi [[1, 2], [0, 4]] (by simp)
  refine ⟨J, ep, h1, ?_, ?_⟩
  · rw [h _ rfl (by simp)]
    norm_num [upperEnergy, Finset.sum_range_succ, entryOf]
  · rw [h _ rfl (by intro i _; by_cases h : i = 0 <;> simp [h])]
    norm_num [upperEnergy, Finset.sum_range_succ, entryOf]

/-- The lower triangle is ignored by `qi`, although `wq.pauli` (C42) adds it: `[[0, 0], [1, 0]]` has energy 1 at (1, 1),
and `qi` gives energy 0. -/
theorem C48_lower_triangle_ignored : ∃ (q : Rows) (J : NpMat) (ep : ℝ) (s : NpInts), (∀ r ∈ q, r.length = q.length) ∧
    qi q = .ok (J, ep) ∧ s.dim = q.length ∧ (∀ i, s.ent i = 1) ∧
    ei s J + ep ≠ quboEnergy q.length (entryOf q) (fun _ => 1) := by
  obtain ⟨J, ep, h1, -, -, h⟩ := C48_qi [[0, 0], [1, 0]] (by simp)
  refine ⟨[[0, 0], [1, 0]], J, ep, ⟨2, fun _ => 1⟩, by simp, h1, rfl, by simp, ?_⟩
  rw [h _ rfl (by simp)]
  norm_num [upperEnergy, quboEnergy, Finset.sum_range_succ, entryOf]

end

end Blueqat
