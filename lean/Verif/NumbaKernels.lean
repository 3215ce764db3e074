import Verif.NumbaLoops
import Verif.NpKernels

/-! Lemmas: the loops of the numba kernels apply the textbook operations. -/

set_option linter.unusedSimpArgs false
set_option linter.unusedVariables false

namespace Blueqat

open Spec

noncomputable section

/-! ## Loops over pairs of elements -/

/-- The body maps the values of its two elements by `F` and `G`, which may depend on the address written, and touches
nothing else. -/
structure ActsAt (body : ℕ → ℕ → List Ins) (F G : ℕ → ℂ → ℂ → ℂ) : Prop where
  eff : ∀ (i0 i1 : ℕ) (q : Arr), i0 ≠ i1 → i0 < q.length → i1 < q.length → ∀ a, (runIter (body i0 i1) q).getD a 0 =
    if a = i0 then F i0 (q.getD i0 0) (q.getD i1 0) else if a = i1 then G i1 (q.getD i0 0) (q.getD i1 0) else q.getD a 0
  touch : ∀ i0 i1 a, Touches (body i0 i1) a → a = i0 ∨ a = i1

/-- The same with functions that do not depend on the address. -/
abbrev Acts (body : ℕ → ℕ → List Ins) (F G : ℂ → ℂ → ℂ) : Prop := ActsAt body (fun _ => F) (fun _ => G)

/-- The two elements of each iteration of a loop on the amplitudes selected by `C` of an `n`-qubit state. -/
structure PairLoop (n t N : ℕ) (C : ℕ → Bool) (f g : ℕ → ℕ) : Prop where
  lt : ∀ i < N, f i < 2 ^ n
  sel : ∀ i < N, C (f i) = true ∧ (f i).testBit t = false
  flip : ∀ i < N, g i = flipBit t (f i)
  inj : ∀ i < N, ∀ j < N, f i = f j → i = j
  surj : ∀ a < 2 ^ n, C a = true → a.testBit t = false → ∃ i < N, f i = a
  indep : ∀ a, C (flipBit t a) = C a

theorem PairLoop.apart {n t N : ℕ} {C : ℕ → Bool} {f g : ℕ → ℕ} (h : PairLoop n t N C f g)
    {body : ℕ → ℕ → List Ins} (hb : ∀ i0 i1 a, Touches (body i0 i1) a → a = i0 ∨ a = i1) :
    Apart ((List.range N).map fun i => body (f i) (g i)) := by
  rw [Apart, List.pairwise_map]
  refine List.Pairwise.imp_of_mem ?_ List.nodup_range
  intro i j hi hj hij a ha ha'
  rw [List.mem_range] at hi hj
  have bf : ∀ i < N, (f i).testBit t = false := fun i hi => (h.sel i hi).2
  have bg : ∀ i < N, (g i).testBit t = true := fun i hi => by rw [h.flip i hi, testBit_flipBit_self, bf i hi]; rfl
  rcases hb _ _ _ ha with h1 | h1 <;> rcases hb _ _ _ ha' with h2 | h2
  · exact hij (h.inj i hi j hj (h1.symm.trans h2))
  · have e := h1.symm.trans h2
    have := bf i hi; rw [e, bg j hj] at this; cases this
  · have e := h1.symm.trans h2
    have := bg i hi; rw [e, bf j hj] at this; cases this
  · have e := h1.symm.trans h2
    rw [h.flip i hi, h.flip j hj] at e
    refine hij (h.inj i hi j hj ?_)
    have := congrArg (flipBit t) e
    simpa using this

theorem vec_getD_lt {n a : ℕ} (ψ : Vec) (ha : a < 2 ^ n) : (vec n ψ).getD a 0 = ψ a := by
  simp [vec, List.getD_eq_getElem?_getD, ha]

/-- Value after the loop of an element that only one iteration touches. -/
theorem Char.at {ps : List (List Ins)} {q q' : Arr} (h : Char ps q q') {p : List Ins} (hp : p ∈ ps) (a : ℕ)
    (ho : ∀ p' ∈ ps, p' ≠ p → ¬ Touches p' a) : q'.getD a 0 = (runIter p q).getD a 0 := by
  by_cases ht : Touches p a
  · exact h.on p hp a ht
  · rw [h.off a (fun p' hp' => by by_cases e : p' = p; exact e ▸ ht; exact ho p' hp' e)]
    exact (foldl_frame p (⟨0, 0⟩, q) a ht).symm

theorem PairLoop.run {n t N : ℕ} {C : ℕ → Bool} {f g : ℕ → ℕ} (h : PairLoop n t N C f g) (ht : t < n)
    {body : ℕ → ℕ → List Ins} {F G : ℕ → ℂ → ℂ → ℂ} (hb : ActsAt body F G) (ψ : Vec) :
    runIters ((List.range N).map fun i => body (f i) (g i)) (vec n ψ) = vec n (fun a => if C a then
      (if a.testBit t then G a (ψ (flipBit t a)) (ψ a) else F a (ψ a) (ψ (flipBit t a))) else ψ a) := by
  have hc := runIters_char _ (h.apart hb.touch) (vec n ψ)
  have hl : (runIters ((List.range N).map fun i => body (f i) (g i)) (vec n ψ)).length = 2 ^ n := by
    rw [hc.len]; simp
  rw [vec_getD n _ hl]
  apply vec_congr
  intro a ha
  have bf : ∀ i < N, (f i).testBit t = false := fun i hi => (h.sel i hi).2
  have bg : ∀ i < N, (g i).testBit t = true := fun i hi => by rw [h.flip i hi, testBit_flipBit_self, bf i hi]; rfl
  have key : ∀ i < N, (a = f i ∨ a = g i) →
      (runIters ((List.range N).map fun i => body (f i) (g i)) (vec n ψ)).getD a 0 =
        (runIter (body (f i) (g i)) (vec n ψ)).getD a 0 := by
    intro i hi hai
    refine hc.at (List.mem_map.2 ⟨i, List.mem_range.2 hi, rfl⟩) a ?_
    intro p' hp' hne
    obtain ⟨j, hj, rfl⟩ := List.mem_map.1 hp'
    rw [List.mem_range] at hj
    intro ht'
    apply hne
    suffices j = i by rw [this]
    apply h.inj j hj i hi
    rcases hb.touch _ _ _ ht' with h1 | h1 <;> rcases hai with h2 | h2
    · exact h1.symm.trans h2
    · have := bf j hj; rw [← h1, h2, bg i hi] at this; cases this
    · have := bg j hj; rw [← h1, h2, bf i hi] at this; cases this
    · have e := h1.symm.trans h2
      rw [h.flip i hi, h.flip j hj] at e
      simpa using congrArg (flipBit t) e
  by_cases hC : C a = true
  · rw [if_pos hC]
    obtain ⟨i, hi, hai⟩ : ∃ i < N, (a = f i ∨ a = g i) := by
      by_cases hta : a.testBit t = true
      · obtain ⟨i, hi, he⟩ := h.surj (flipBit t a) (flipBit_lt ht ha) (by rw [h.indep, hC])
          (by rw [testBit_flipBit_self, hta]; rfl)
        exact ⟨i, hi, .inr (by rw [h.flip i hi, he]; simp)⟩
      · obtain ⟨i, hi, he⟩ := h.surj a ha hC (by simpa using hta)
        exact ⟨i, hi, .inl he.symm⟩
    have hg : g i < 2 ^ n := by rw [h.flip i hi]; exact flipBit_lt ht (h.lt i hi)
    have hne : f i ≠ g i := by
      intro e; have := bf i hi; rw [e, bg i hi] at this; cases this
    rw [key i hi hai, hb.eff _ _ _ hne (by simpa using h.lt i hi) (by simpa using hg)]
    rw [vec_getD_lt ψ (h.lt i hi), vec_getD_lt ψ hg]
    rcases hai with rfl | rfl
    · rw [if_pos rfl, bf i hi, h.flip i hi]; rfl
    · rw [if_neg hne.symm, if_pos rfl, bg i hi, h.flip i hi]; simp
  · rw [if_neg hC]
    rw [hc.off a, vec_getD_lt ψ ha]
    intro p' hp'
    obtain ⟨j, hj, rfl⟩ := List.mem_map.1 hp'
    rw [List.mem_range] at hj
    intro ht'
    apply hC
    rcases hb.touch _ _ _ ht' with h1 | h1
    · rw [h1]; exact (h.sel j hj).1
    · rw [h1, h.flip j hj, h.indep]; exact (h.sel j hj).1

/-! ## The loops of the kernels are pair loops -/

theorem loopCount {n k : ℕ} (hk : k ≤ n) (hk0 : 0 < k) (hn : n ≤ 64) :
    ((1 : U64) <<< ((BitVec.ofNat 64 n : U64) - BitVec.ofNat 64 k).toNat).toNat = 2 ^ (n - k) := by
  have h : ((BitVec.ofNat 64 n : U64) - BitVec.ofNat 64 k).toNat = n - k := by
    rw [BitVec.toNat_sub, BitVec.toNat_ofNat, BitVec.toNat_ofNat]
    have e1 : n % 2 ^ 64 = n := Nat.mod_eq_of_lt (by norm_num; omega)
    have e2 : k % 2 ^ 64 = k := Nat.mod_eq_of_lt (by norm_num; omega)
    rw [e1, e2, show 2 ^ 64 - k + n = (n - k) + 2 ^ 64 by norm_num; omega, Nat.add_mod_right,
      Nat.mod_eq_of_lt (by norm_num; omega)]
  rw [h, toNat_one_shl (by omega)]

theorem pairLoop1 {n t : ℕ} (ht : t < n) (hn : n ≤ 64) :
    PairLoop n t (2 ^ (n - 1)) (fun _ => true) (fun i => insertZero t i) (fun i => flipBit t (insertZero t i)) := by
  have e : n = (n - 1) + 1 := by omega
  have hlt : ∀ i, insertZero t i < 2 ^ n ↔ i < 2 ^ (n - 1) := by
    intro i; rw [e, insertZero_lt (by omega)]; rfl
  refine ⟨fun i hi => (hlt i).2 hi, ?_, fun _ _ => rfl, fun i _ j _ h => insertZero_inj t h, ?_, fun _ => rfl⟩
  · intro i hi; refine ⟨rfl, ?_⟩; rw [testBit_insertZero]; simp
  · intro a ha _ hb
    obtain ⟨i, rfl⟩ := insertZero_surj hb
    exact ⟨i, (hlt i).1 ha, rfl⟩

theorem iters1_eq (body : ℕ → ℕ → List Ins) {n t : ℕ} (ht : t < n) (hn : n ≤ 64) :
    iters1 body n t = (List.range (2 ^ (n - 1))).map fun i => body (insertZero t i) (flipBit t (insertZero t i)) := by
  have hN := loopCount (n := n) (k := 1) (by omega) (by omega) hn
  rw [iters1]
  simp only
  rw [show (1 : U64) = BitVec.ofNat 64 1 from rfl] at *
  rw [hN]
  apply List.map_congr_left
  intro i hi
  rw [List.mem_range] at hi
  have h0 := shifted_eq ht hn hi
  have hl := (pairLoop1 ht hn).lt i hi
  have hb : (insertZero t i).testBit t = false := ((pairLoop1 ht hn).sel i hi).2
  rw [show (1 : U64) = BitVec.ofNat 64 1 from rfl] at h0
  rw [h0]
  congr 1
  rw [BitVec.toNat_add, h0, show (BitVec.ofNat 64 1 : U64) = 1 from rfl, toNat_one_shl (by omega), flipBit_of_testBit_false hb]
  apply Nat.mod_eq_of_lt
  have h1 : insertZero t i + 2 ^ t < 2 ^ n := by
    rw [← flipBit_of_testBit_false hb]; exact flipBit_lt ht hl
  exact h1.trans_le (Nat.pow_le_pow_right (by norm_num) hn)

/-- Controls all set. -/
def allSet (cs : List ℕ) (a : ℕ) : Bool := cs.all fun c => a.testBit c

/-- Index with the control bits set. -/
def orMask (cs : List ℕ) (i : ℕ) : ℕ := cs.foldl (fun m c => m ||| 2 ^ c) i

theorem testBit_orMask (cs : List ℕ) (i b : ℕ) : (orMask cs i).testBit b = (i.testBit b || decide (b ∈ cs)) := by
  induction cs generalizing i with
  | nil => simp [orMask]
  | cons c cs ih =>
    rw [orMask, List.foldl_cons]
    have := ih (i ||| 2 ^ c)
    rw [orMask] at this
    rw [this, Nat.testBit_or, Nat.testBit_two_pow]
    by_cases h : c = b
    · subst h; simp
    · simp [h, Ne.symm h]

theorem nbOrMask_bits (cs : List ℕ) (hc : ∀ c ∈ cs, c < 64) (b : ℕ) :
    (nbOrMask cs).getLsbD b = decide (b ∈ cs) := by
  have key : ∀ (cs : List ℕ) (m : U64), (∀ c ∈ cs, c < 64) →
      (cs.foldl (fun m c => m ||| ((1 : U64) <<< c)) m).getLsbD b = (m.getLsbD b || decide (b ∈ cs)) := by
    intro cs
    induction cs with
    | nil => intro m _; simp
    | cons c cs ih =>
      intro m hm
      rw [List.foldl_cons, ih _ (fun c hc => hm c (by simp [hc])), BitVec.getLsbD_or]
      have h1 : ((1 : U64) <<< c).getLsbD b = decide (b = c) := by
        have := toNat_one_shl (hm c (by simp))
        rw [BitVec.getLsbD, this, Nat.testBit_two_pow]
        simp [eq_comm]
      rw [h1]
      by_cases h : b = c <;> simp [h]
  have := key cs 0 hc
  rw [nbOrMask, this]
  simp

theorem pairLoopC {n t : ℕ} {cs : List ℕ} (hn : n ≤ 64) (hx : ∀ x ∈ cs ++ [t], x < n) (hd : (cs ++ [t]).Nodup) :
    PairLoop n t (2 ^ (n - (cs ++ [t]).length)) (allSet cs)
      (fun i => orMask cs (insertZeros ((cs ++ [t]).mergeSort (fun a b => decide (a ≤ b))) i))
      (fun i => flipBit t (orMask cs (insertZeros ((cs ++ [t]).mergeSort (fun a b => decide (a ≤ b))) i))) := by
  have hs := sorted_mergeSort _ hd
  have hmem : ∀ x, x ∈ (cs ++ [t]).mergeSort (fun a b => decide (a ≤ b)) ↔ x ∈ cs ++ [t] := fun x =>
    (List.mergeSort_perm _ _).mem_iff
  have hlen : ((cs ++ [t]).mergeSort (fun a b => decide (a ≤ b))).length = (cs ++ [t]).length := by simp
  have hz := insertZeros_zero _ hs
  have htc : t ∉ cs := by
    rw [List.nodup_append] at hd
    intro h; exact hd.2.2 t h t (by simp) rfl
  have hlt := fun i => insertZeros_lt _ hs i n (fun x h => hx x ((hmem x).1 h))
  rw [hlen] at hlt
  have horlt : ∀ i, orMask cs i < 2 ^ n ↔ i < 2 ^ n := by
    intro i
    rw [lt_pow_iff_bits, lt_pow_iff_bits]
    constructor
    · intro h b hb; have := h b hb; rw [testBit_orMask, Bool.or_eq_false_iff] at this; exact this.1
    · intro h b hb
      rw [testBit_orMask, h b hb, Bool.false_or, decide_eq_false_iff_not]
      intro hbc; have := hx b (by simp [hbc]); omega
  refine ⟨fun i hi => (horlt _).2 ((hlt i).2 hi), ?_, fun _ _ => rfl, ?_, ?_, ?_⟩
  · intro i hi
    refine ⟨?_, ?_⟩
    · rw [allSet, List.all_eq_true]; intro c hc; rw [testBit_orMask]; simp [hc]
    · rw [testBit_orMask, hz i t ((hmem t).2 (by simp))]; simp [htc]
  · intro i hi j hj h
    apply insertZeros_inj _
    apply Nat.eq_of_testBit_eq
    intro b
    by_cases hb : b ∈ cs
    · rw [hz i b ((hmem b).2 (by simp [hb])), hz j b ((hmem b).2 (by simp [hb]))]
    · have := congrArg (fun k => k.testBit b) h
      simpa [testBit_orMask, hb] using this
  · intro a ha hC hta
    rw [allSet, List.all_eq_true] at hC
    -- clear the control bits
    have hcl : ∃ a' : ℕ, (∀ b, a'.testBit b = (a.testBit b && !decide (b ∈ cs))) := by
      refine ⟨a ^^^ orMask cs 0, fun b => ?_⟩
      rw [Nat.testBit_xor, testBit_orMask, Nat.zero_testBit, Bool.false_or]
      by_cases hb : b ∈ cs
      · simp [hb, hC b hb]
      · simp [hb]
    obtain ⟨a', ha'⟩ := hcl
    obtain ⟨i, hi⟩ := insertZeros_surj _ hs a' (by
      intro x hxm
      rw [hmem] at hxm
      rw [ha']
      rcases List.mem_append.1 hxm with h | h
      · simp [h]
      · simp at h; subst h; simp [hta])
    have e : orMask cs a' = a := by
      apply Nat.eq_of_testBit_eq
      intro b
      rw [testBit_orMask, ha']
      by_cases hb : b ∈ cs
      · simp [hb, hC b hb]
      · simp [hb]
    refine ⟨i, ?_, by simp only [hi]; exact e⟩
    rw [← hlt, hi, ← horlt, e]; exact ha
  · intro a
    simp only [allSet]
    rw [Bool.eq_iff_iff, List.all_eq_true, List.all_eq_true]
    constructor
    · intro h c hc
      have := h c hc
      rwa [testBit_flipBit_ne (by rintro rfl; exact htc hc)] at this
    · intro h c hc
      rw [testBit_flipBit_ne (by rintro rfl; exact htc hc)]; exact h c hc

theorem itersC_eq (body : ℕ → ℕ → List Ins) {n t : ℕ} {cs : List ℕ} (hn : n ≤ 64) (hx : ∀ x ∈ cs ++ [t], x < n)
    (hd : (cs ++ [t]).Nodup) (hk : (cs ++ [t]).length ≤ n) :
    itersC body n cs t = (List.range (2 ^ (n - (cs ++ [t]).length))).map fun i =>
      body (orMask cs (insertZeros ((cs ++ [t]).mergeSort (fun a b => decide (a ≤ b))) i))
        (flipBit t (orMask cs (insertZeros ((cs ++ [t]).mergeSort (fun a b => decide (a ≤ b))) i))) := by
  rw [itersC]
  simp only
  rw [loopCount hk (by simp) hn]
  apply List.map_congr_left
  intro i hi
  rw [List.mem_range] at hi
  have h0 := multShifted_eq hd hx hn hi
  have hcs : ∀ c ∈ cs, c < 64 := fun c hc => (hx c (by simp [hc])).trans_le hn
  have e1 : (nbMultShifted (nbCreateMasks (cs ++ [t])) (BitVec.ofNat 64 i) ||| nbOrMask cs).toNat =
      orMask cs (insertZeros ((cs ++ [t]).mergeSort (fun a b => decide (a ≤ b))) i) := by
    apply Nat.eq_of_testBit_eq
    intro b
    rw [testBit_orMask, BitVec.toNat_or, Nat.testBit_or, h0]
    congr 1
    exact nbOrMask_bits cs hcs b
  rw [e1]
  congr 1
  rw [BitVec.toNat_or, e1, toNat_one_shl ((hx t (by simp)).trans_le hn)]
  have hb := ((pairLoopC hn hx hd).sel i hi).2
  apply Nat.eq_of_testBit_eq
  intro b
  rw [Nat.testBit_or, flipBit, Nat.testBit_xor, Nat.testBit_two_pow]
  by_cases h : t = b
  · subst h; rw [hb]; simp
  · simp [h]

/-! ## The loop bodies -/

/-- The body applies the matrix to its two elements. -/
abbrev ActsM (body : ℕ → ℕ → List Ins) (M : M2) : Prop :=
  Acts body (fun x y => M.a * x + M.b * y) (fun x y => M.c * x + M.d * y)

theorem Acts.congr {body : ℕ → ℕ → List Ins} {F G F' G' : ℂ → ℂ → ℂ} (h : Acts body F G) (hF : ∀ x y, F x y = F' x y)
    (hG : ∀ x y, G x y = G' x y) : Acts body F' G' := by
  have e1 : F = F' := by funext x y; exact hF x y
  have e2 : G = G' := by funext x y; exact hG x y
  subst e1 e2; exact h

macro "acts_eff" d:ident : tactic => `(tactic| (
  intro i0 i1 q hne h0 h1 a
  simp only [runIter, $d:ident, List.foldl_cons, List.foldl_nil, Ins.exec, getD_set', List.length_set]
  have hne' := hne.symm
  by_cases ha0 : a = i0
  · subst ha0; simp [hne, hne', h0]
  · by_cases ha1 : a = i1
    · subst ha1; simp [hne, hne', h1]
    · simp [ha0, ha1, Ne.symm ha0, Ne.symm ha1]))

macro "acts_touch" d:ident : tactic => `(tactic| (
  intro i0 i1 a hh
  obtain ⟨i, hi, ha⟩ := hh
  simp only [$d:ident, List.mem_cons, List.not_mem_nil, or_false] at hi
  rcases hi with hi | hi | hi | hi <;> subst hi <;> first | exact Or.inl ha.symm | exact Or.inr ha.symm))

theorem acts_insX : Acts insX (fun _ u => u) (fun t _ => t) := by
  constructor
  · acts_eff insX
  · acts_touch insX

theorem acts_insY : Acts insY (fun _ u => u * (-1 * Complex.I)) (fun t _ => t * Complex.I) := by
  constructor
  · acts_eff insY
  · acts_touch insY

theorem acts_insH : Acts insH (fun t u => (t + u) * ((1 / √2 : ℝ) : ℂ)) (fun t u => (t - u) * ((1 / √2 : ℝ) : ℂ)) := by
  constructor
  · acts_eff insH
  · acts_touch insH

theorem acts_insDiag (z : ℂ) : Acts (insDiag z) (fun t _ => t) (fun _ u => u * z) := by
  constructor
  · acts_eff insDiag
  · rintro i0 i1 a ⟨i, hi, rfl⟩
    simp only [insDiag, List.mem_cons, List.not_mem_nil, or_false] at hi
    rcases hi with rfl | rfl <;> simp [address]

theorem acts_insRZ (z0 z1 : ℂ) : Acts (insRZ z0 z1) (fun t _ => t * z0) (fun _ u => u * z1) := by
  constructor
  · acts_eff insRZ
  · acts_touch insRZ

theorem acts_insRot (a b c d : ℂ) :
    Acts (insRot a b c d) (fun t u => a * t + b * u) (fun t u => c * t + d * u) := by
  constructor
  · acts_eff insRot
  · acts_touch insRot

theorem acts_insRY (c s : ℂ) : Acts (insRY c s) (fun t u => c * t - s * u) (fun t u => s * t + c * u) := by
  constructor
  · acts_eff insRY
  · acts_touch insRY

theorem acts_insReduce0 (r : ℂ) : Acts (insReduce0 r) (fun t _ => t * r) (fun _ _ => 0) := by
  constructor
  · acts_eff insReduce0
  · rintro i0 i1 a ⟨i, hi, rfl⟩
    simp only [insReduce0, List.mem_cons, List.not_mem_nil, or_false] at hi
    rcases hi with rfl | rfl | rfl <;> simp [address]

theorem acts_insReduce1 (r : ℂ) : Acts (insReduce1 r) (fun _ _ => 0) (fun _ u => u * r) := by
  constructor
  · acts_eff insReduce1
  · rintro i0 i1 a ⟨i, hi, rfl⟩
    simp only [insReduce1, List.mem_cons, List.not_mem_nil, or_false] at hi
    rcases hi with rfl | rfl | rfl <;> simp [address]

theorem acts_insReset1 (r : ℂ) : Acts (insReset1 r) (fun _ u => u * r) (fun _ _ => 0) := by
  constructor
  · acts_eff insReset1
  · rintro i0 i1 a ⟨i, hi, rfl⟩
    simp only [insReset1, List.mem_cons, List.not_mem_nil, or_false] at hi
    rcases hi with rfl | rfl | rfl <;> simp [address]

/-! ### with their constants -/

theorem actsM_X : ActsM insX mX := acts_insX.congr (by simp [mX]) (by simp [mX])
theorem actsM_diag (z : ℂ) : ActsM (insDiag z) ⟨1, 0, 0, z⟩ :=
  (acts_insDiag z).congr (by simp) (by simp [mul_comm])
theorem actsM_RZ (z0 z1 : ℂ) : ActsM (insRZ z0 z1) ⟨z0, 0, 0, z1⟩ :=
  (acts_insRZ z0 z1).congr (by simp [mul_comm]) (by simp [mul_comm])

theorem exp_I_mul (x : ℝ) : Complex.exp (Complex.I * x) = cis x := by rw [cis, mul_comm]

theorem conj_exp_I_mul (x : ℝ) : (starRingEnd ℂ) (Complex.exp (Complex.I * x)) = cis (-x) := by
  rw [← Complex.exp_conj, cis]; simp [mul_comm]

theorem actsM_rx (θ : ℝ) : ActsM (insRot (Real.cos (θ * 0.5)) (Real.sin (θ * 0.5) * (-1 * Complex.I))
    (Real.sin (θ * 0.5) * (-1 * Complex.I)) (Real.cos (θ * 0.5))) (mRX θ) := by
  refine (acts_insRot _ _ _ _).congr ?_ ?_ <;> intro x y <;> simp only [mRX, half] <;> ring

theorem actsM_ry (θ : ℝ) : ActsM (insRY (Real.cos (θ * 0.5)) (Real.sin (θ * 0.5))) (mRY θ) := by
  refine (acts_insRY _ _).congr ?_ ?_ <;> intro x y <;> simp only [mRY, half] <;> ring

theorem actsM_rz (θ : ℝ) : ActsM (insRZ ((starRingEnd ℂ) (Complex.exp (Complex.I * ((θ * 0.5 : ℝ) : ℂ))))
    (Complex.exp (Complex.I * ((θ * 0.5 : ℝ) : ℂ)))) (mRZ θ) := by
  have := actsM_RZ ((starRingEnd ℂ) (Complex.exp (Complex.I * ((θ * 0.5 : ℝ) : ℂ))))
    (Complex.exp (Complex.I * ((θ * 0.5 : ℝ) : ℂ)))
  rw [conj_exp_I_mul, exp_I_mul, half] at this ⊢
  exact this

theorem nbBody1_acts {k : G1} {b : ℕ → ℕ → List Ins} (h : nbBody1 k = some b) : ActsM b (matrix1 k) := by
  cases k <;> simp only [nbBody1, Option.some.injEq, reduceCtorEq] at h <;> subst h
  · exact actsM_X
  · exact acts_insY.congr (by intro x y; simp [matrix1, mY]; ring) (by intro x y; simp [matrix1, mY]; ring)
  · exact actsM_diag (-1)
  · exact acts_insH.congr (by intro x y; simp [matrix1, mH]; ring) (by intro x y; simp [matrix1, mH]; ring)
  · have e : Complex.exp (0.25 * Complex.I * Real.pi) = cis (Real.pi / 4) := by
      rw [cis]; congr 1; push_cast; norm_num; ring
    rw [e]; exact actsM_diag _
  · have e : Complex.exp (-0.25 * Complex.I * Real.pi) = cis (-(Real.pi / 4)) := by
      rw [cis]; congr 1; push_cast; norm_num; ring
    rw [e]; exact actsM_diag _
  · exact actsM_diag _
  · have := actsM_diag (-1 * Complex.I)
    rw [neg_one_mul] at this ⊢; exact this
  · exact actsM_rx _
  · exact actsM_ry _
  · exact actsM_rz _
  · rename_i θ
    have := actsM_diag (Complex.exp (Complex.I * θ))
    rw [exp_I_mul] at this ⊢; exact this
  · exact actsM_rz _
  · rename_i θ φ lam
    have e1 : Complex.exp ((φ + lam) * (0.5 * Complex.I)) = Complex.exp (Complex.I * (((φ + lam) / 2 : ℝ) : ℂ)) := by
      congr 1; push_cast; norm_num; ring
    have e2 : Complex.exp ((φ - lam) * (0.5 * Complex.I)) = Complex.exp (Complex.I * (((φ - lam) / 2 : ℝ) : ℂ)) := by
      congr 1; push_cast; norm_num; ring
    rw [e1, e2, conj_exp_I_mul, conj_exp_I_mul, exp_I_mul, exp_I_mul, half]
    refine (acts_insRot _ _ _ _).congr ?_ ?_ <;> intro x y <;> simp only [matrix1, mU3] <;> ring

theorem nbBody2_acts {k : G2} {b : ℕ → ℕ → List Ins} (h : nbBody2 k = some b) :
    ∃ M, ActsM b M ∧ ∀ c t, op2 phSim k c t = ctrl c (app M t) := by
  cases k <;> simp only [nbBody2, Option.some.injEq, reduceCtorEq] at h <;> subst h
  · exact ⟨_, actsM_X, fun _ _ => rfl⟩
  · exact ⟨_, actsM_diag (-1), fun _ _ => rfl⟩
  · exact ⟨_, actsM_rx _, fun _ _ => rfl⟩
  · exact ⟨_, actsM_ry _, fun _ _ => rfl⟩
  · exact ⟨_, actsM_rz _, fun _ _ => rfl⟩
  · rename_i θ
    have := actsM_diag (Complex.exp (Complex.I * θ))
    rw [exp_I_mul] at this ⊢
    exact ⟨_, this, fun _ _ => rfl⟩

theorem nbBody3_acts {k : G3} {b : ℕ → ℕ → List Ins} (h : nbBody3 k = some b) :
    ∃ M, ActsM b M ∧ ∀ c d t, op3 k c d t = ctrl c (ctrl d (app M t)) := by
  cases k <;> simp only [nbBody3, Option.some.injEq, reduceCtorEq] at h <;> subst h
  · exact ⟨_, actsM_X, fun _ _ _ => rfl⟩
  · exact ⟨_, actsM_diag (-1), fun _ _ _ => rfl⟩

/-! ## Kernels -/

theorem nbKernel1_vec {body : ℕ → ℕ → List Ins} {M : M2} (hb : ActsM body M) {n t : ℕ} (ht : t < n) (hn : n ≤ 64)
    (ψ : Vec) : nbKernel1 body n (t : ℤ) (vec n ψ) = .ok (vec n (app M t ψ)) := by
  rw [nbKernel1, if_pos (by omega), Int.toNat_natCast, iters1_eq body ht hn, (pairLoop1 ht hn).run ht hb]
  congr 1

theorem nbKernelC_vec {body : ℕ → ℕ → List Ins} {M : M2} (hb : ActsM body M) {n t : ℕ} {cs : List ℕ}
    (hn : n ≤ 64) (hx : ∀ x ∈ cs ++ [t], x < n) (hd : (cs ++ [t]).Nodup) (ψ : Vec) :
    nbKernelC body n ((cs ++ [t]).map (fun q : ℕ => (q : ℤ))) (vec n ψ) =
      .ok (vec n (fun a => if allSet cs a then app M t ψ a else ψ a)) := by
  have hk : (cs ++ [t]).length ≤ n := by
    have h1 : (cs ++ [t]).toFinset ⊆ Finset.range n := by
      intro x hxm; rw [List.mem_toFinset] at hxm; exact Finset.mem_range.2 (hx x hxm)
    have := Finset.card_le_card h1
    rwa [List.toFinset_card_of_nodup hd, Finset.card_range] at this
  rw [nbKernelC, if_pos]
  · have e1 : ((cs ++ [t]).map (fun q : ℕ => (q : ℤ))).getLast? = some (t : ℤ) := by simp
    have e2 : (((cs ++ [t]).map (fun q : ℕ => (q : ℤ))).dropLast.map Int.toNat) = cs := by
      rw [List.map_append, List.map_singleton, List.dropLast_concat, List.map_map]
      simp [Function.comp_def]
    rw [e1]
    simp only [e2, Int.toNat_natCast]
    rw [itersC_eq body hn hx hd hk, (pairLoopC hn hx hd).run (hx t (by simp)) hb]
    congr 1
  · refine ⟨?_, ?_⟩
    · intro x hxm
      obtain ⟨q, hq, rfl⟩ := List.mem_map.1 hxm
      have := hx q hq; omega
    · exact hd.map (fun a b h => by simpa using h)

end

end Blueqat
