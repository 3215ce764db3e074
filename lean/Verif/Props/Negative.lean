import Verif.Spec.Negative
import Verif.Props.Backend
import Verif.Props.Numpy

/-!
# C56: negative indices
-/

set_option linter.unusedSimpArgs false
set_option linter.unusedVariables false

namespace Blueqat

open Spec

theorem slicing_norm_atom (n : ℕ) (a : Atom) : slicingSinglevalue (normAtom n a) n = slicingSinglevalue a n := by
  cases a with
  | int i =>
    simp only [normAtom]
    by_cases h : i < 0 ∧ -(n : ℤ) ≤ i
    · have h2 : ¬ (i + n < 0) := by omega
      simp [h, slicingSinglevalue, h2]
    · simp [h]
  | slice _ _ _ => rfl
  | bad => rfl

theorem forEach_map {α β : Type} (f : α → Gen β) (g : α → α) (h : ∀ a, f (g a) = f a) (l : List α) :
    Gen.forEach f (l.map g) = Gen.forEach f l := by
  induction l with
  | nil => rfl
  | cons a l ih => simp only [List.map_cons, Gen.forEach, h, ih]

theorem slicing_norm (n : ℕ) (T : Targets) : slicing (normTargets n T) n = slicing T n := by
  cases T with
  | one a => exact slicing_norm_atom n a
  | tup xs =>
    simp only [normTargets, slicing]
    apply forEach_map
    intro x
    cases x with
    | atom a => exact slicing_norm_atom n a
    | tup as => rfl

theorem slicingItem_norm (n : ℕ) (x : Item) : slicingItem (normItem n x) n = slicingItem x n := by
  cases x with
  | atom a => exact slicing_norm_atom n a
  | tup as => exact forEach_map _ _ (slicing_norm_atom n) as

theorem qubitPairs_norm (n : ℕ) (T : Targets) : qubitPairs (normTargets n T) n = qubitPairs T n := by
  match T with
  | .one a => rfl
  | .tup [] => rfl
  | .tup [a] => rfl
  | .tup [a, b] => simp only [normTargets, List.map_cons, List.map_nil, qubitPairs, slicingItem_norm]
  | .tup (a :: b :: c :: xs) => rfl

/-- C56 in full, for the numpy simulator: replacing every index `-k` (1 ≤ k ≤ n) by `n - k` does not change what
a gate does, and a gate with an index below `-n` is rejected. -/
def C56_full : Prop :=
  ∀ (n : ℕ) (g : Gate) (ctx : NpCtx),
    npRunGate n (retarget g (normTargets n g.targets)) ctx = npRunGate n g ctx ∧
    ∀ i, i < -(n : ℤ) → Mentions i g.targets → ∃ e, npRunGate n g ctx = .error e

theorem npAction_norm (n : ℕ) (g : Gate) (h3 : ∀ k T, g ≠ .g3 k T) :
    npAction n (retarget g (normTargets n g.targets)) = npAction n g := by
  cases g with
  | g1 k T =>
    cases k <;> simp only [retarget, Gate.targets, npAction, Option.some.injEq, npGateX, npGateY, npGateZ, npGateH,
      npGateRX, npGateRY, npGateRZ, npGatePhase, npGateT, npGateS, npGateU1, npGateU3] <;>
      (funext ctx; simp only [swapLoop1, inPlaceLoop1, slicing_norm])
  | g2 k T =>
    cases k <;> simp only [retarget, Gate.targets, npAction, Option.some.injEq, npGateCZ, npGateCX, npGateCRX,
      npGateCRY, npGateCRZ, npGateCPhase] <;>
      (funext ctx; simp only [swapLoop2, inPlaceLoop2, qubitPairs_norm])
  | g3 k T => exact absurd rfl (h3 k T)
  | measure T =>
    simp only [retarget, Gate.targets, npAction, Option.some.injEq]
    funext ctx; simp only [npGateMeasure, slicing_norm]
  | reset T =>
    simp only [retarget, Gate.targets, npAction, Option.some.injEq]
    funext ctx; simp only [npGateReset, slicing_norm]

theorem fallback_norm (n : ℕ) (g : Gate) (h3 : ∀ k T, g ≠ .g3 k T) :
    (retarget g (normTargets n g.targets)).fallback n = g.fallback n := by
  cases g with
  | g1 k T => cases k <;> simp only [retarget, Gate.targets, Gate.fallback, slicing_norm]
  | g2 k T => cases k <;> simp only [retarget, Gate.targets, Gate.fallback, qubitPairs_norm]
  | g3 k T => exact absurd rfl (h3 k T)
  | measure T => rfl
  | reset T => rfl

/-- C56, first half, for every one- and two-qubit gate, measurement and reset, native or by fallback: `-k` means
`n - k`. Missing: the three-qubit gates, for which it is false (`C56_ccx_refuted`). -/
theorem C56_negative_partial (n : ℕ) (g : Gate) (h3 : ∀ k T, g ≠ .g3 k T) (ctx : NpCtx) :
    npRunGate n (retarget g (normTargets n g.targets)) ctx = npRunGate n g ctx := by
  have key : ∀ fuel, runGate (npAction n) n (fuel + 1) (retarget g (normTargets n g.targets)) ctx =
      runGate (npAction n) n (fuel + 1) g ctx := by
    intro fuel
    rw [runGate, runGate, npAction_norm n g h3, fallback_norm n g h3]
  exact key 999

/-- `cx[-1, 0:1]` on 3 qubits is `cx[2, 0:1]`. -/
example : retarget (.g2 .cx (.tup [.atom (.int (-1)), .atom (.slice (some 0) (some 1) none)]))
    (normTargets 3 (.tup [.atom (.int (-1)), .atom (.slice (some 0) (some 1) none)])) =
    .g2 .cx (.tup [.atom (.int 2), .atom (.slice (some 0) (some 1) none)]) := by
  simp [retarget, normTargets, normItem, normAtom]

theorem forGen_neg {σ : Type} (g : Gen Int) (body : Int → σ → Except PyErr σ) (s : σ)
    (hb : ∀ t < 0, ∀ s, ∃ e, body t s = .error e) (h : (∃ t ∈ g.vals, t < 0) ∨ g.err ≠ none) :
    ∃ e, forGen g body s = .error e := by
  have key : ∀ (l : List Int) (s : σ), (∃ t ∈ l, t < 0) → ∃ e, l.foldlM (fun s t => body t s) s = .error e := by
    intro l
    induction l with
    | nil => intro s h; simp at h
    | cons x l ih =>
      intro s h
      rw [List.foldlM_cons]
      cases hx : body x s with
      | error e => exact ⟨e, rfl⟩
      | ok s' =>
        obtain ⟨t, ht, hneg⟩ := h
        rcases List.mem_cons.1 ht with rfl | ht
        · obtain ⟨e, he⟩ := hb t hneg s; rw [he] at hx; cases hx
        · exact ih s' ⟨t, ht, hneg⟩
  simp only [forGen]
  cases hf : g.vals.foldlM (fun s t => body t s) s with
  | error e => exact ⟨e, rfl⟩
  | ok s' =>
    rcases h with h | h
    · obtain ⟨e, he⟩ := key _ s h; rw [he] at hf; cases hf
    · cases hg : g.err with
      | none => exact absurd hg h
      | some e => exact ⟨e, rfl⟩

theorem forPairs_neg {σ : Type} (g : Except PyErr (List (Int × Int))) (body : Int → Int → σ → Except PyErr σ) (s : σ)
    (hb : ∀ c t, c < 0 ∨ t < 0 → ∀ s, ∃ e, body c t s = .error e)
    (h : ∀ ps, g = .ok ps → ∃ p ∈ ps, p.1 < 0 ∨ p.2 < 0) : ∃ e, forPairs g body s = .error e := by
  have key : ∀ (l : List (Int × Int)) (s : σ), (∃ p ∈ l, p.1 < 0 ∨ p.2 < 0) →
      ∃ e, l.foldlM (fun s p => body p.1 p.2 s) s = .error e := by
    intro l
    induction l with
    | nil => intro s h; simp at h
    | cons x l ih =>
      intro s h
      rw [List.foldlM_cons]
      cases hx : body x.1 x.2 s with
      | error e => exact ⟨e, rfl⟩
      | ok s' =>
        obtain ⟨t, ht, hneg⟩ := h
        rcases List.mem_cons.1 ht with rfl | ht
        · obtain ⟨e, he⟩ := hb _ _ hneg s; rw [he] at hx; cases hx
        · exact ih s' ⟨t, ht, hneg⟩
  cases g with
  | error e => exact ⟨e, rfl⟩
  | ok ps => exact key ps s (h ps rfl)

theorem forEach_mem {α β : Type} (f : α → Gen β) (l : List α) (x : α) (hx : x ∈ l) (b : β)
    (hb : b ∈ (f x).vals) : b ∈ (Gen.forEach f l).vals ∨ (Gen.forEach f l).err ≠ none := by
  induction l with
  | nil => simp at hx
  | cons y l ih =>
    simp only [Gen.forEach, Gen.append]
    cases hy : (f y).err with
    | some e => right; simp
    | none =>
      simp only [List.mem_append]
      rcases List.mem_cons.1 hx with rfl | hx
      · exact .inl (.inl hb)
      · rcases ih hx with h | h
        · exact .inl (.inr h)
        · exact .inr h

theorem slicing_neg {n : ℕ} {i : ℤ} (hi : i < -(n : ℤ)) {T : Targets} (hm : Mentions i T) :
    (∃ t ∈ (slicing T n).vals, t < 0) ∨ (slicing T n).err ≠ none := by
  have h0 : i < 0 := by omega
  have ha : i + n ∈ (slicingSinglevalue (.int i) n).vals := by simp [slicingSinglevalue, h0]
  cases T with
  | one a => simp only [Mentions] at hm; subst hm; exact .inl ⟨_, ha, by omega⟩
  | tup xs =>
    obtain ⟨x, hx, hor⟩ := hm
    rcases hor with rfl | ⟨as, rfl, -⟩
    · rcases forEach_mem (fun x => slicingItemAsSingle x n) xs _ hx (i + n) ha with h | h
      · exact .inl ⟨_, h, by omega⟩
      · exact .inr h
    · right
      have : ∀ l : List Item, Item.tup as ∈ l → (Gen.forEach (fun x => slicingItemAsSingle x n) l).err ≠ none := by
        intro l
        induction l with
        | nil => intro h; simp at h
        | cons y l ih =>
          intro h
          simp only [Gen.forEach, Gen.append]
          cases hy : (slicingItemAsSingle y n).err with
          | some e => simp
          | none =>
            rcases List.mem_cons.1 h with rfl | h
            · simp [slicingItemAsSingle] at hy
            · exact ih h
      exact this xs hx

theorem qubitPairs_neg {n : ℕ} {i : ℤ} (hi : i < -(n : ℤ)) {T : Targets} (hm : Mentions i T)
    (ps : List (Int × Int)) (h : qubitPairs T n = .ok ps) : ∃ p ∈ ps, p.1 < 0 ∨ p.2 < 0 := by
  have h0 : i < 0 := by omega
  have ha : i + n ∈ (slicingSinglevalue (.int i) n).vals := by simp [slicingSinglevalue, h0]
  have hside : ∀ (x : Item) l, (x = .atom (.int i) ∨ ∃ as, x = .tup as ∧ Atom.int i ∈ as) →
      (slicingItem x n).toList = .ok l → ∃ t ∈ l, t < 0 := by
    intro x l hx hl
    rcases hx with rfl | ⟨as, rfl, hmem⟩
    · simp only [slicingItem, Gen.toList] at hl
      simp [slicingSinglevalue, h0] at hl
      exact ⟨i + n, by simp [← hl], by omega⟩
    · simp only [slicingItem, Gen.toList] at hl
      rcases forEach_mem (fun a => slicingSinglevalue a n) as _ hmem (i + n) ha with h | h
      · cases he : (Gen.forEach (fun a => slicingSinglevalue a n) as).err with
        | none => rw [he] at hl; cases hl; exact ⟨_, h, by omega⟩
        | some e => rw [he] at hl; cases hl
      · cases he : (Gen.forEach (fun a => slicingSinglevalue a n) as).err with
        | none => exact absurd he h
        | some e => rw [he] at hl; cases hl
  match T, hm, h with
  | .tup [x, y], hm, h =>
    simp only [qubitPairs] at h
    cases hx : (slicingItem x n).toList with
    | error e => rw [hx] at h; cases h
    | ok cs =>
      cases hy : (slicingItem y n).toList with
      | error e => rw [hx, hy] at h; cases h
      | ok ts =>
        rw [hx, hy] at h
        simp only at h
        split_ifs at h with hlen hany
        cases h
        simp only [ne_eq, not_not] at hlen
        obtain ⟨z, hz, hor⟩ := hm
        simp only [List.mem_cons, List.not_mem_nil, or_false] at hz
        rcases hz with rfl | rfl
        · obtain ⟨t, ht, hneg⟩ := hside _ _ hor hx
          obtain ⟨k, hk, rfl⟩ := List.getElem_of_mem ht
          have hk2 : k < (cs.zip ts).length := by simp; omega
          exact ⟨(cs.zip ts)[k], List.getElem_mem hk2, .inl (by simpa using hneg)⟩
        · obtain ⟨t, ht, hneg⟩ := hside _ _ hor hy
          obtain ⟨k, hk, rfl⟩ := List.getElem_of_mem ht
          have hk2 : k < (cs.zip ts).length := by simp; omega
          exact ⟨(cs.zip ts)[k], List.getElem_mem hk2, .inr (by simpa using hneg)⟩
  | .one a, _, h => simp [qubitPairs] at h
  | .tup [], _, h => simp [qubitPairs] at h
  | .tup [x], _, h => simp [qubitPairs] at h
  | .tup (x :: y :: z :: xs), _, h => simp [qubitPairs] at h

theorem swapLoop1_neg {n : ℕ} {i : ℤ} (hi : i < -(n : ℤ)) {T : Targets} (hm : Mentions i T)
    (body : ℕ → ℤ → Bufs → Except PyErr Bufs) (hb : ∀ t < 0, ∀ s, ∃ e, body n t s = .error e) (ctx : NpCtx) :
    ∃ e, swapLoop1 body n T ctx = .error e := by
  obtain ⟨e, he⟩ := forGen_neg (slicing T n) (body n) (ctx.qubits, ctx.buf) hb (slicing_neg hi hm)
  exact ⟨e, by simp only [swapLoop1, he]⟩

theorem inPlaceLoop1_neg {n : ℕ} {i : ℤ} (hi : i < -(n : ℤ)) {T : Targets} (hm : Mentions i T)
    (body : ℕ → ℤ → Arr → Except PyErr Arr) (hb : ∀ t < 0, ∀ s, ∃ e, body n t s = .error e) (ctx : NpCtx) :
    ∃ e, inPlaceLoop1 body n T ctx = .error e := by
  obtain ⟨e, he⟩ := forGen_neg (slicing T n) (body n) ctx.qubits hb (slicing_neg hi hm)
  exact ⟨e, by simp only [inPlaceLoop1, he]⟩

theorem swapLoop2_neg {n : ℕ} {i : ℤ} (hi : i < -(n : ℤ)) {T : Targets} (hm : Mentions i T)
    (body : ℕ → ℤ → ℤ → Bufs → Except PyErr Bufs)
    (hb : ∀ c t, c < 0 ∨ t < 0 → ∀ s, ∃ e, body n c t s = .error e) (ctx : NpCtx) :
    ∃ e, swapLoop2 body n T ctx = .error e := by
  obtain ⟨e, he⟩ := forPairs_neg (qubitPairs T n) (body n) (ctx.qubits, ctx.buf) hb (qubitPairs_neg hi hm)
  exact ⟨e, by simp only [swapLoop2, he]⟩

theorem inPlaceLoop2_neg {n : ℕ} {i : ℤ} (hi : i < -(n : ℤ)) {T : Targets} (hm : Mentions i T)
    (body : ℕ → ℤ → ℤ → Arr → Except PyErr Arr)
    (hb : ∀ c t, c < 0 ∨ t < 0 → ∀ s, ∃ e, body n c t s = .error e) (ctx : NpCtx) :
    ∃ e, inPlaceLoop2 body n T ctx = .error e := by
  obtain ⟨e, he⟩ := forPairs_neg (qubitPairs T n) (body n) ctx.qubits hb (qubitPairs_neg hi hm)
  exact ⟨e, by simp only [inPlaceLoop2, he]⟩

theorem two_shl1 {c t : ℤ} (h : c < 0 ∨ t < 0) : shl1 c = .error .valueError ∨
    (∃ b, shl1 c = .ok b) ∧ shl1 t = .error .valueError := by
  by_cases hc : c < 0
  · exact .inl (shl1_neg hc)
  · exact .inr ⟨⟨_, by simp [shl1, hc]; rfl⟩, shl1_neg (h.resolve_left hc)⟩

theorem npGateCCZ_neg {n : ℕ} {i : ℤ} (hi : i < 0) {T : Targets} (hm : Mentions i T) (ctx : NpCtx) :
    ∃ e, npGateCCZ n T ctx = .error e := by
  simp only [npGateCCZ]
  match T, hm with
  | .one a, _ => exact ⟨_, rfl⟩
  | .tup [], _ => exact ⟨_, rfl⟩
  | .tup [x], _ => exact ⟨_, rfl⟩
  | .tup [x, y], _ => exact ⟨_, rfl⟩
  | .tup (x :: y :: z :: u :: xs), _ => exact ⟨_, rfl⟩
  | .tup [x, y, z], ⟨v, hv, hor⟩ =>
    have hv' : ∃ e, shl1Item v = .error e := by
      rcases hor with rfl | ⟨as, rfl, -⟩
      · exact ⟨_, shl1_neg hi⟩
      · exact ⟨_, rfl⟩
    obtain ⟨e, he⟩ := hv'
    simp only [unpack3, bind, Except.bind]
    simp only [List.mem_cons, List.not_mem_nil, or_false] at hv
    cases h1 : shl1Item x with
    | error e => exact ⟨e, rfl⟩
    | ok b1 =>
      cases h2 : shl1Item y with
      | error e => exact ⟨e, by simp [h2]⟩
      | ok b2 =>
        cases h3 : shl1Item z with
        | error e => exact ⟨e, by simp [h2, h3]⟩
        | ok b3 => rcases hv with rfl | rfl | rfl <;> simp_all

/-- C56, second half, for the gates with a method of their own: an index below `-n` raises. Missing: gates run by
fallback, for which it is false (`C56_tdg_refuted`). -/
theorem C56_below_partial (n : ℕ) (g : Gate) (hn : npHas g = true) (i : ℤ) (hi : i < -(n : ℤ))
    (hm : Mentions i g.targets) (ctx : NpCtx) : ∃ e, npRunGate n g ctx = .error e := by
  have hrun : ∀ a, npAction n g = some a → (∃ e, a ctx = .error e) → ∃ e, npRunGate n g ctx = .error e := by
    intro a ha he
    show ∃ e, runGate (npAction n) n (999 + 1) g ctx = .error e
    simp only [runGate, ha]; exact he
  cases g with
  | g1 k T =>
    cases k <;> simp only [npHas, Bool.false_eq_true] at hn <;> refine hrun _ rfl ?_
    · exact swapLoop1_neg hi hm _ (fun t ht s => ⟨_, by simp only [bodyX, shl1_neg ht]; rfl⟩) ctx
    · exact swapLoop1_neg hi hm _ (fun t ht s => ⟨_, by simp only [bodyY, shl1_neg ht]; rfl⟩) ctx
    · exact inPlaceLoop1_neg hi hm _ (fun t ht s => ⟨_, by simp only [bodyPhase, shl1_neg ht]; rfl⟩) ctx
    · exact swapLoop1_neg hi hm _ (fun t ht s => ⟨_, by simp only [bodyH, shl1_neg ht]; rfl⟩) ctx
    · exact inPlaceLoop1_neg hi hm _ (fun t ht s => ⟨_, by simp only [bodyPhase, shl1_neg ht]; rfl⟩) ctx
    · exact inPlaceLoop1_neg hi hm _ (fun t ht s => ⟨_, by simp only [bodyPhase, shl1_neg ht]; rfl⟩) ctx
    · exact swapLoop1_neg hi hm _ (fun t ht s => ⟨_, by simp only [bodyRot, shl1_neg ht]; rfl⟩) ctx
    · exact swapLoop1_neg hi hm _ (fun t ht s => ⟨_, by simp only [bodyRot, shl1_neg ht]; rfl⟩) ctx
    · exact inPlaceLoop1_neg hi hm _ (fun t ht s => ⟨_, by simp only [bodyRZ, shl1_neg ht]; rfl⟩) ctx
    · exact inPlaceLoop1_neg hi hm _ (fun t ht s => ⟨_, by simp only [bodyPhase, shl1_neg ht]; rfl⟩) ctx
    · exact inPlaceLoop1_neg hi hm _ (fun t ht s => ⟨_, by simp only [bodyRZ, shl1_neg ht]; rfl⟩) ctx
    · exact swapLoop1_neg hi hm _ (fun t ht s => ⟨_, by simp only [bodyU3, shl1_neg ht]; rfl⟩) ctx
  | g2 k T =>
    have h1 : ∀ z, ∀ c t, c < 0 ∨ t < 0 → ∀ s, ∃ e, bodyCPhase z n c t s = .error e := by
      intro z c t h s
      rcases two_shl1 h with h | ⟨⟨b, hb⟩, h⟩
      · exact ⟨_, by simp only [bodyCPhase, h]; rfl⟩
      · exact ⟨_, by simp only [bodyCPhase, hb, h]; rfl⟩
    have h2 : ∀ z1 z2, ∀ c t, c < 0 ∨ t < 0 → ∀ s, ∃ e, bodyCRZ z1 z2 n c t s = .error e := by
      intro z1 z2 c t h s
      rcases two_shl1 h with h | ⟨⟨b, hb⟩, h⟩
      · exact ⟨_, by simp only [bodyCRZ, h]; rfl⟩
      · exact ⟨_, by simp only [bodyCRZ, hb, h]; rfl⟩
    have h3 : ∀ c t, c < 0 ∨ t < 0 → ∀ s, ∃ e, bodyCX n c t s = .error e := by
      intro c t h s
      rcases two_shl1 h with h | ⟨⟨b, hb⟩, h⟩
      · exact ⟨_, by simp only [bodyCX, h]; rfl⟩
      · exact ⟨_, by simp only [bodyCX, hb, h]; rfl⟩
    have h4 : ∀ a b' c' d, ∀ c t, c < 0 ∨ t < 0 → ∀ s, ∃ e, bodyCRot a b' c' d n c t s = .error e := by
      intro a b' c' d c t h s
      rcases two_shl1 h with h | ⟨⟨b, hb⟩, h⟩
      · exact ⟨_, by simp only [bodyCRot, h]; rfl⟩
      · exact ⟨_, by simp only [bodyCRot, hb, h]; rfl⟩
    cases k <;> simp only [npHas, Bool.false_eq_true] at hn <;> refine hrun _ rfl ?_
    · exact swapLoop2_neg hi hm _ h3 ctx
    · exact inPlaceLoop2_neg hi hm _ (h1 _) ctx
    · exact swapLoop2_neg hi hm _ (h4 _ _ _ _) ctx
    · exact swapLoop2_neg hi hm _ (h4 _ _ _ _) ctx
    · exact inPlaceLoop2_neg hi hm _ (h2 _ _) ctx
    · exact inPlaceLoop2_neg hi hm _ (h1 _) ctx
  | g3 k T =>
    have hi0 : i < 0 := by omega
    cases k <;> simp only [npHas, Bool.false_eq_true] at hn <;> refine hrun _ rfl ?_
    · simp only [npGateCCX]
      cases hu : unpack3 T with
      | error e => exact ⟨e, rfl⟩
      | ok v =>
        obtain ⟨a, b, t⟩ := v
        simp only [bind, Except.bind]
        cases hh : npGateH n t.toTargets ctx with
        | error e => exact ⟨e, rfl⟩
        | ok c1 =>
          obtain ⟨e, he⟩ := npGateCCZ_neg hi0 hm c1
          have he' : npGateCCZ n T c1 = .error e := he
          exact ⟨e, by simp only [he']⟩
    · exact npGateCCZ_neg hi0 hm ctx
  | measure T =>
    refine hrun _ rfl ?_
    obtain ⟨e, he⟩ := forGen_neg (slicing T n) (bodyMeasure n) ctx
      (fun t ht s => ⟨.valueError, by simp only [bodyMeasure, shl1_neg ht]; rfl⟩) (slicing_neg hi hm)
    exact ⟨e, by simp only [npGateMeasure, he]⟩
  | reset T =>
    refine hrun _ rfl ?_
    obtain ⟨e, he⟩ := forGen_neg (slicing T n) (bodyReset n) ctx
      (fun t ht s => ⟨.valueError, by simp only [bodyReset, shl1_neg ht]; rfl⟩) (slicing_neg hi hm)
    exact ⟨e, by simp only [npGateReset, he]⟩

/-- Hypotheses met: `x[0, -5]` on 4 qubits. -/
example : npHas (.g1 .x (.tup [.atom (.int 0), .atom (.int (-5))])) = true ∧
    Mentions (-5) (Gate.g1 .x (.tup [.atom (.int 0), .atom (.int (-5))])).targets ∧ (-5 : ℤ) < -((4 : ℕ) : ℤ) :=
  ⟨rfl, ⟨.atom (.int (-5)), by simp, .inl rfl⟩, by norm_num⟩

/-- C56 is false of the code: `ccx[-3, -2, -1]` on three qubits raises, while `ccx[0, 1, 2]` runs. -/
theorem C56_ccx_refuted (ψ : Vec) (buf : Arr) (hb : buf.length = 2 ^ 3) (cr : List ℕ) (sv : Bool) (rnd : ℕ → ℝ) :
    let g : Gate := .g3 .ccx (.tup [.atom (.int (-3)), .atom (.int (-2)), .atom (.int (-1))])
    retarget g (normTargets 3 g.targets) = .g3 .ccx (.tup [.atom (.int 0), .atom (.int 1), .atom (.int 2)]) ∧
    (∃ e, npRunGate 3 g ⟨vec 3 ψ, buf, cr, sv, rnd⟩ = .error e) ∧
    (∃ c, npRunGate 3 (retarget g (normTargets 3 g.targets)) ⟨vec 3 ψ, buf, cr, sv, rnd⟩ = .ok c) := by
  have hr : retarget (.g3 .ccx (.tup [.atom (.int (-3)), .atom (.int (-2)), .atom (.int (-1))]))
      (normTargets 3 (Gate.g3 .ccx (.tup [.atom (.int (-3)), .atom (.int (-2)), .atom (.int (-1))])).targets) =
      .g3 .ccx (.tup [.atom (.int 0), .atom (.int 1), .atom (.int 2)]) := by
    simp [retarget, normTargets, normItem, normAtom, Gate.targets]
  refine ⟨hr, ?_, ?_⟩
  · show ∃ e, npGateCCX 3 _ _ = .error e
    simp only [npGateCCX, unpack3, bind, Except.bind]
    cases hh : npGateH 3 (Item.atom (.int (-1))).toTargets ⟨vec 3 ψ, buf, cr, sv, rnd⟩ with
    | error e => exact ⟨e, rfl⟩
    | ok c1 =>
      obtain ⟨e, he⟩ := npGateCCZ_neg (n := 3) (i := -3) (by norm_num)
        (T := .tup [.atom (.int (-3)), .atom (.int (-2)), .atom (.int (-1))]) ⟨.atom (.int (-3)), by simp, .inl rfl⟩ c1
      exact ⟨e, by simp only [he]⟩
  · rw [hr]
    obtain ⟨b, s, -, he⟩ := npRunGate_state 3 (.g3 .ccx (.tup [.atom (.int 0), .atom (.int 1), .atom (.int 2)]))
      [.three .ccx 0 1 2] ⟨0, 1, 2, rfl, rfl⟩ (by simp [Elem.Valid]) (by simp [Elem.IsUnitary]) ψ buf hb cr sv rnd
    exact ⟨_, he⟩

/-- C56 is false of the code: `tdg[-5]` on 4 qubits runs (it acts on qubit 3: the fallback gate is given the index
-1, which is interpreted once more), while `t[-5]` raises. -/
theorem C56_tdg_refuted (ψ : Vec) (buf : Arr) (cr : List ℕ) (sv : Bool) (rnd : ℕ → ℝ) :
    (∃ c, npRunGate 4 (.g1 .tdg (.one (.int (-5)))) ⟨vec 4 ψ, buf, cr, sv, rnd⟩ = .ok c) ∧
    ∃ e, npRunGate 4 (.g1 .t (.one (.int (-5)))) ⟨vec 4 ψ, buf, cr, sv, rnd⟩ = .error e := by
  refine ⟨⟨_, rfl⟩, ?_⟩
  exact C56_below_partial 4 (.g1 .t (.one (.int (-5)))) rfl (-5) (by norm_num) rfl _

theorem runGate_fallback (n fuel : ℕ) (g : Gate) (ctx : NpCtx) (h : npAction n g = none) :
    runGate (npAction n) n (fuel + 1) g ctx =
      match g.fallback n with
      | .error e => .error e
      | .ok gs => gs.foldlM (fun s g => runGate (npAction n) n fuel g s) ctx := by
  rw [runGate, h]
  rfl

/-- C56. The three-qubit gates reject every negative index. -/
theorem C56_three (n : ℕ) (k : G3) (T : Targets) (i : ℤ) (hi : i < 0) (hm : Mentions i T) (ctx : NpCtx) :
    ∃ e, npRunGate n (.g3 k T) ctx = .error e := by
  have hx : ∀ ctx, ∃ e, npGateCCX n T ctx = .error e := by
    intro ctx
    simp only [npGateCCX]
    cases hu : unpack3 T with
    | error e => exact ⟨e, rfl⟩
    | ok v =>
      obtain ⟨a, b, t⟩ := v
      simp only [bind, Except.bind]
      cases hh : npGateH n t.toTargets ctx with
      | error e => exact ⟨e, rfl⟩
      | ok c1 =>
        obtain ⟨e, he⟩ := npGateCCZ_neg hi hm c1
        have he' : npGateCCZ n T c1 = .error e := he
        exact ⟨e, by simp only [he']⟩
  cases k with
  | ccx => exact hx ctx
  | ccz => exact npGateCCZ_neg hi hm ctx
  | cswap =>
    show ∃ e, runGate (npAction n) n (999 + 1) (.g3 .cswap T) ctx = .error e
    have hu : ∀ c t1 t2, unpack3 T = .ok (c, t1, t2) → T = .tup [c, t1, t2] := by
      intro c t1 t2 h
      match T, h with
      | .tup [x, y, z], h => simp only [unpack3, Except.ok.injEq, Prod.mk.injEq] at h; obtain ⟨rfl, rfl, rfl⟩ := h; rfl
    cases h : unpack3 T with
    | error e => exact ⟨e, by rw [runGate_fallback _ _ _ _ rfl]; simp only [Gate.fallback, h]⟩
    | ok v =>
      obtain ⟨c, t1, t2⟩ := v
      obtain rfl := hu c t1 t2 h
      rw [runGate_fallback _ _ _ _ rfl]
      simp only [Gate.fallback, h, List.foldlM_cons, bind, Except.bind]
      cases h1 : runGate (npAction n) n 999 (onItems .cx t2 t1) ctx with
      | error e => exact ⟨e, rfl⟩
      | ok c1 =>
        obtain ⟨e, he⟩ := hx c1
        have he' : runGate (npAction n) n 999 (.g3 .ccx (.tup [c, t1, t2])) c1 = .error e := he
        exact ⟨e, by simp only [he']⟩

/-- `cswap[0, 1, -1]`. -/
example : Mentions (-1) (.tup [.atom (.int 0), .atom (.int 1), .atom (.int (-1))]) := ⟨.atom (.int (-1)), by simp, .inl rfl⟩

theorem runGate_norm (n fuel : ℕ) (g : Gate) (h3 : ∀ k T, g ≠ .g3 k T) (ctx : NpCtx) :
    runGate (npAction n) n (fuel + 1) (retarget g (normTargets n g.targets)) ctx = runGate (npAction n) n (fuel + 1) g ctx := by
  rw [runGate, runGate, npAction_norm n g h3, fallback_norm n g h3]

theorem runGates_norm (n fuel : ℕ) (gs : List Gate) (h3 : ∀ g ∈ gs, ∀ k T, g ≠ .g3 k T) (ctx : NpCtx) :
    (gs.map fun g => retarget g (normTargets n g.targets)).foldlM (fun s g => runGate (npAction n) n (fuel + 1) g s) ctx =
      gs.foldlM (fun s g => runGate (npAction n) n (fuel + 1) g s) ctx := by
  induction gs generalizing ctx with
  | nil => rfl
  | cons g gs ih =>
    simp only [List.map_cons, List.foldlM_cons, runGate_norm n fuel g (h3 g (by simp))]
    cases runGate (npAction n) n (fuel + 1) g ctx with
    | error e => rfl
    | ok c => exact ih (fun g hg => h3 g (by simp [hg])) c

/-- The qubit a negative index in range addresses. -/
def nrmInt (n : ℕ) (i : ℤ) : ℤ := if i < 0 ∧ -(n : ℤ) ≤ i then i + n else i

theorem on1_norm (n : ℕ) (k : G1) (t : ℤ) : retarget (on1 k t) (normTargets n (on1 k t).targets) = on1 k (nrmInt n t) := by
  simp only [on1, retarget, Gate.targets, Targets.ofInt, normTargets, normAtom, nrmInt]
  split_ifs <;> rfl

theorem on2_norm (n : ℕ) (k : G2) (c t : ℤ) :
    retarget (on2 k c t) (normTargets n (on2 k c t).targets) = on2 k (nrmInt n c) (nrmInt n t) := by
  simp only [on2, retarget, Gate.targets, Targets.ofPair, normTargets, List.map_cons, List.map_nil, normItem, normAtom, nrmInt]
  split_ifs <;> rfl

theorem fallbackOn1_norm {k : G1} {f : ℤ → List Gate} (h : k.fallbackOn = some f) (n : ℕ) (t : ℤ) :
    (f t).map (fun g => retarget g (normTargets n g.targets)) = f (nrmInt n t) ∧ ∀ g ∈ f t, ∀ k T, g ≠ .g3 k T := by
  cases k <;> simp only [G1.fallbackOn, Option.some.injEq, reduceCtorEq] at h <;> subst h <;>
    simp [on1_norm] <;> simp [on1]

theorem fallbackOn2_norm {k : G2} {f : ℤ → ℤ → List Gate} (h : k.fallbackOn = some f) (n : ℕ) (c t : ℤ) :
    (f c t).map (fun g => retarget g (normTargets n g.targets)) = f (nrmInt n c) (nrmInt n t) ∧
      ∀ g ∈ f c t, ∀ k T, g ≠ .g3 k T := by
  cases k <;> simp only [G2.fallbackOn, Option.some.injEq, reduceCtorEq] at h <;> subst h <;>
    simp [on1_norm, on2_norm] <;> simp [on1, on2]

/-- C56. One-qubit gates run by fallback: the indices `-2n, ..., -n-1`, which should be rejected, address the qubits `0, ..., n-1`, and
only an index below `-2n` is rejected. -/
theorem C56_twice_one (n : ℕ) (k : G1) (hk : npHas (.g1 k (.one .bad)) = false) (i : ℤ) (ctx : NpCtx) :
    (-2 * (n : ℤ) ≤ i → i < -(n : ℤ) →
      npRunGate n (.g1 k (.one (.int i))) ctx = npRunGate n (.g1 k (.one (.int (i + 2 * n)))) ctx) ∧
    (i < -2 * (n : ℤ) → k ≠ .i → ∃ e, npRunGate n (.g1 k (.one (.int i))) ctx = .error e) := by
  have hact : ∀ T, npAction n (.g1 k T) = none := by
    intro T
    cases k <;> simp [npHas] at hk <;> rfl
  by_cases hki : k = .i
  · subst hki
    exact ⟨fun _ _ => rfl, fun _ h => absurd rfl h⟩
  have hrun : ∀ j : ℤ, npRunGate n (.g1 k (.one (.int j))) ctx =
      match k.fallbackOn with
      | none => .error .notImplementedError
      | some f => (f (if j < 0 then j + n else j)).foldlM (fun s g => runGate (npAction n) n (998 + 1) g s) ctx := by
    intro j
    show runGate (npAction n) n (999 + 1) (.g1 k (.one (.int j))) ctx = _
    rw [runGate_fallback _ _ _ _ (hact _)]
    have : Gate.fallback (.g1 k (.one (.int j))) n =
        match k.fallbackOn with
        | none => .error .notImplementedError
        | some f => .ok (f (if j < 0 then j + n else j)) := by
      cases k
      case i => exact absurd rfl hki
      all_goals
        simp only [Gate.fallback, slicing, slicingSinglevalue]
        first
          | (simp only [G1.fallbackOn]; split_ifs <;> simp [Gen.toList])
          | rfl
    rw [this]
    cases k.fallbackOn <;> rfl
  constructor
  · intro h1 h2
    rw [hrun, hrun]
    cases hf : k.fallbackOn with
    | none => rfl
    | some f =>
      obtain ⟨e1, e2⟩ := fallbackOn1_norm hf n (i + n)
      have a1 : i < 0 := by omega
      have a2 : ¬ i + 2 * (n : ℤ) < 0 := by omega
      have a3 : nrmInt n (i + n) = i + 2 * n := by
        rw [nrmInt, if_pos (by omega)]; ring
      simp only [if_pos a1, if_neg a2]
      rw [← runGates_norm n 998 (f (i + n)) e2, e1, a3]
  · intro h _
    rw [hrun]
    have a1 : i < 0 := by omega
    simp only [if_pos a1]
    have hb : ∀ k' : G1, npHas (.g1 k' (.one .bad)) = true →
        ∃ e, runGate (npAction n) n (998 + 1) (on1 k' (i + n)) ctx = .error e := by
      intro k' hk'
      have h9 : npHas (on1 k' (i + n)) = true := by cases k' <;> simp [npHas, on1] at hk' ⊢
      obtain ⟨e, he⟩ := C56_below_partial n (on1 k' (i + n)) h9 (i + n) (by omega) rfl ctx
      refine ⟨e, ?_⟩
      rw [← he]
      show runGate (npAction n) n (998 + 1) (on1 k' (i + n)) ctx = runGate (npAction n) n (999 + 1) (on1 k' (i + n)) ctx
      cases k' <;> simp [npHas] at hk' <;> rfl
    cases k <;> simp [npHas] at hk hki
    all_goals
      simp only [G1.fallbackOn, List.foldlM_cons, bind, Except.bind]
    · obtain ⟨e, he⟩ := hb (.phase (-Real.pi / 4)) rfl
      exact ⟨e, by simp only [he]⟩
    · obtain ⟨e, he⟩ := hb (.phase (-Real.pi / 2)) rfl
      exact ⟨e, by simp only [he]⟩
    · rename_i φ lam _
      obtain ⟨e, he⟩ := hb (.u3 (Real.pi / 2) φ lam) rfl
      exact ⟨e, by simp only [he]⟩

/-- `tdg[-5]` on four qubits is `tdg[3]`, and `tdg[-9]` is rejected. -/
example (ctx : NpCtx) : npRunGate 4 (.g1 .tdg (.one (.int (-5)))) ctx = npRunGate 4 (.g1 .tdg (.one (.int 3))) ctx ∧
    ∃ e, npRunGate 4 (.g1 .tdg (.one (.int (-9)))) ctx = .error e :=
  ⟨(C56_twice_one 4 .tdg rfl (-5) ctx).1 (by norm_num) (by norm_num), (C56_twice_one 4 .tdg rfl (-9) ctx).2 (by norm_num) (by simp)⟩

/-- C56. Two-qubit gates run by fallback: an index in `-2n, ..., -n-1` of a pair addresses the qubit `2n` higher. -/
theorem C56_twice_two (n : ℕ) (k : G2) (hk : npHas (.g2 k (.one .bad)) = false) (c t c' t' : ℤ) (ctx : NpCtx)
    (hc : c = c' ∨ c + n = c' ∨ c + 2 * n = c') (ht : t = t' ∨ t + n = t' ∨ t + 2 * n = t')
    (hc0 : 0 ≤ c') (hcn : c' < n) (ht0 : 0 ≤ t') (htn : t' < n) (hne : c' ≠ t') :
    npRunGate n (.g2 k (.tup [.atom (.int c), .atom (.int t)])) ctx =
      npRunGate n (.g2 k (.tup [.atom (.int c'), .atom (.int t')])) ctx := by
  have hact : ∀ T, npAction n (.g2 k T) = none := by
    intro T
    cases k <;> simp [npHas] at hk <;> rfl
  have hres : ∀ j : ℤ, (slicingItem (.atom (.int j)) n).toList = .ok [if j < 0 then j + n else j] := by
    intro j
    simp only [slicingItem, slicingSinglevalue]
    split_ifs <;> rfl
  have hrun : ∀ a b : ℤ, (if a < 0 then a + (n : ℤ) else a) ≠ (if b < 0 then b + (n : ℤ) else b) →
      npRunGate n (.g2 k (.tup [.atom (.int a), .atom (.int b)])) ctx =
      match k.fallbackOn with
      | none => .error .notImplementedError
      | some f => (f (if a < 0 then a + n else a) (if b < 0 then b + n else b)).foldlM
          (fun s g => runGate (npAction n) n (998 + 1) g s) ctx := by
    intro a b hab
    show runGate (npAction n) n (999 + 1) _ ctx = _
    rw [runGate_fallback _ _ _ _ (hact _)]
    have hq : qubitPairs (.tup [.atom (.int a), .atom (.int b)]) n =
        .ok [(if a < 0 then a + (n : ℤ) else a, if b < 0 then b + (n : ℤ) else b)] := by
      simp only [qubitPairs, hres]
      simp [hab]
    simp only [Gate.fallback, hq]
    cases k.fallbackOn <;> simp
  have key : ∀ a a' : ℤ, (a = a' ∨ a + n = a' ∨ a + 2 * n = a') → 0 ≤ a' → a' < n →
      nrmInt n (if a < 0 then a + n else a) = a' ∧ (if a' < 0 then a' + (n : ℤ) else a') = a' := by
    intro a a' h h0 hn
    refine ⟨?_, if_neg (by omega)⟩
    rw [nrmInt]
    split_ifs <;> omega
  obtain ⟨c1, c2⟩ := key c c' hc hc0 hcn
  obtain ⟨t1, t2⟩ := key t t' ht ht0 htn
  rw [hrun c t (fun h => hne (by rw [← c1, ← t1, h])), hrun c' t' (by rw [c2, t2]; exact hne), c2, t2]
  cases hf : k.fallbackOn with
  | none => rfl
  | some f =>
    obtain ⟨e1, e2⟩ := fallbackOn2_norm hf n (if c < 0 then c + n else c) (if t < 0 then t + n else t)
    simp only
    rw [← runGates_norm n 998 _ e2, e1, c1, t1]

/-- `swap[-5, 0]` on four qubits is `swap[3, 0]`. -/
example (ctx : NpCtx) : npRunGate 4 (.g2 .swap (.tup [.atom (.int (-5)), .atom (.int 0)])) ctx =
    npRunGate 4 (.g2 .swap (.tup [.atom (.int 3), .atom (.int 0)])) ctx :=
  C56_twice_two 4 .swap rfl (-5) 0 3 0 ctx (by norm_num) (by norm_num) (by norm_num) (by norm_num) (by norm_num) (by norm_num) (by norm_num)

theorem C56_refuted : ¬ C56_full := by
  intro h
  obtain ⟨c, hc⟩ := (C56_tdg_refuted (fun _ => 0) [] [] true (fun _ => 0)).1
  obtain ⟨e, he⟩ := (h 4 (.g1 .tdg (.one (.int (-5)))) ⟨vec 4 (fun _ => 0), [], [], true, fun _ => 0⟩).2 (-5)
    (by norm_num) rfl
  rw [hc] at he; cases he

end Blueqat
