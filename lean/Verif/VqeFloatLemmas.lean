import Verif.Spec.EnergyFloat
import Verif.Props.Energy
import Verif.Props.NpFloat

/-!
# Lemmas: rounded probabilities and energies beside the exact ones
-/

set_option linter.unusedSimpArgs false
set_option linter.unusedVariables false

namespace Blueqat

open Spec

noncomputable section

/-! ## Relative errors -/

/-- One more rounded addition: exact values `a`, `b` with bounds `A`, `B` on their sizes, computed ones `a'`, `b'`. -/
theorem relErr_step {E : Type} [NormedAddCommGroup E] {δ : ℝ} (hδ : 0 ≤ δ) {k : ℕ} {a b a' b' s : E} {A B : ℝ}
    (hA : ‖a‖ ≤ A) (hB : ‖b‖ ≤ B) (h1 : ‖a' - a‖ ≤ ((1 + δ) ^ k - 1) * A) (h2 : ‖b' - b‖ ≤ ((1 + δ) ^ k - 1) * B)
    (hs : ‖s - (a' + b')‖ ≤ δ * ‖a' + b'‖) : ‖s - (a + b)‖ ≤ ((1 + δ) ^ (k + 1) - 1) * (A + B) := by
  have e1 : s - (a + b) = (s - (a' + b')) + ((a' - a) + (b' - b)) := by abel
  have e2 : a' + b' = ((a' - a) + (b' - b)) + (a + b) := by abel
  have h3 : ‖(a' - a) + (b' - b)‖ ≤ ((1 + δ) ^ k - 1) * (A + B) := by
    refine (norm_add_le _ _).trans ?_
    linarith
  have h4 : ‖a + b‖ ≤ A + B := (norm_add_le _ _).trans (by linarith)
  have h5 : ‖a' + b'‖ ≤ ((1 + δ) ^ k - 1) * (A + B) + (A + B) := by
    rw [e2]; exact (norm_add_le _ _).trans (by linarith)
  rw [e1]
  refine (norm_add_le _ _).trans ?_
  have h6 : δ * ‖a' + b'‖ ≤ δ * (((1 + δ) ^ k - 1) * (A + B) + (A + B)) := mul_le_mul_of_nonneg_left h5 hδ
  have : ((1 + δ) ^ (k + 1) - 1) * (A + B) =
      δ * (((1 + δ) ^ k - 1) * (A + B) + (A + B)) + ((1 + δ) ^ k - 1) * (A + B) := by rw [pow_succ]; ring
  linarith

theorem powErr_mono {δ : ℝ} (hδ : 0 ≤ δ) {k m : ℕ} (h : k ≤ m) {A : ℝ} (hA : 0 ≤ A) :
    ((1 + δ) ^ k - 1) * A ≤ ((1 + δ) ^ m - 1) * A :=
  mul_le_mul_of_nonneg_right (sub_le_sub_right (pow_le_pow_right₀ (by linarith) h) 1) hA

/-! ## Dictionaries with nearly the same values -/

/-- The same keys in the same order; the values of `d` have a relative error of at most `r`. -/
def DictNear {α : Type} (r : ℝ) (d d' : PyDict α ℝ) : Prop :=
  List.Forall₂ (fun a b => a.1 = b.1 ∧ 0 ≤ b.2 ∧ |a.2 - b.2| ≤ r * b.2) d d'

theorem DictNear.mono {α : Type} {r s : ℝ} (h : r ≤ s) {d d' : PyDict α ℝ} (hd : DictNear r d d') : DictNear s d d' :=
  List.Forall₂.imp (fun a b hab => ⟨hab.1, hab.2.1, hab.2.2.trans (mul_le_mul_of_nonneg_right h hab.2.1)⟩) hd

theorem DictNear.get {α : Type} [DecidableEq α] {r : ℝ} {d d' : PyDict α ℝ} (hd : DictNear r d d') (k : α) :
    0 ≤ (d'.get k).getD 0 ∧ |(d.get k).getD 0 - (d'.get k).getD 0| ≤ r * (d'.get k).getD 0 := by
  induction hd with
  | nil => simp [PyDict.get]
  | @cons a b l l' hab hl ih =>
    obtain ⟨a1, a2⟩ := a
    obtain ⟨b1, b2⟩ := b
    obtain ⟨rfl, h2, h3⟩ := hab
    simp only [PyDict.get]
    by_cases h : a1 = k
    · simp only [h, if_true]; exact ⟨h2, h3⟩
    · simp only [h, if_false]; exact ih

theorem DictNear.set {α : Type} [DecidableEq α] {r : ℝ} {d d' : PyDict α ℝ} (hd : DictNear r d d') (k : α) {x y : ℝ}
    (hy : 0 ≤ y) (h : |x - y| ≤ r * y) : DictNear r (d.set k x) (d'.set k y) := by
  induction hd with
  | nil => exact .cons ⟨rfl, hy, h⟩ .nil
  | @cons a b l l' hab hl ih =>
    obtain ⟨a1, a2⟩ := a
    obtain ⟨b1, b2⟩ := b
    obtain ⟨rfl, h2, h3⟩ := hab
    simp only [PyDict.set]
    by_cases hk : a1 = k
    · simp only [hk, if_true]; exact .cons ⟨rfl, hy, h⟩ hl
    · simp only [hk, if_false]; exact .cons ⟨rfl, h2, h3⟩ ih

theorem DictNear.foldl {α β : Type} [DecidableEq β] {r : ℝ} (f : α → β) {d d' : PyDict α ℝ} (hd : DictNear r d d') :
    ∀ {e e' : PyDict β ℝ}, DictNear r e e' →
      DictNear r (d.foldl (fun r p => r.set (f p.1) p.2) e) (d'.foldl (fun r p => r.set (f p.1) p.2) e') := by
  induction hd with
  | nil => intro e e' he; exact he
  | @cons a b l l' hab hl ih =>
    intro e e' he
    simp only [List.foldl_cons]
    rw [hab.1]
    exact ih (he.set _ hab.2.1 hab.2.2)

theorem DictNear.keys {α : Type} {r : ℝ} {d d' : PyDict α ℝ} (hd : DictNear r d d') :
    d.map Prod.fst = d'.map Prod.fst := by
  induction hd with
  | nil => rfl
  | cons hab _ ih => simp [hab.1, ih]

/-! ## expect -/

theorem flSquare_near {V : VqeOps} {δ : ℝ} (hV : VqeAccurate V δ) (hδ : 0 ≤ δ) (z : ℂ) :
    |V.add (V.sq z.re) (V.sq z.im) - (z.re ^ 2 + z.im ^ 2)| ≤ ((1 + δ) ^ 2 - 1) * (z.re ^ 2 + z.im ^ 2) := by
  have h1 := hV.sq z.re
  have h2 := hV.sq z.im
  have p1 : 0 ≤ z.re ^ 2 := sq_nonneg _
  have p2 : 0 ≤ z.im ^ 2 := sq_nonneg _
  have := relErr_step (E := ℝ) hδ (k := 1) (a := z.re ^ 2) (b := z.im ^ 2) (a' := V.sq z.re) (b' := V.sq z.im)
    (s := V.add (V.sq z.re) (V.sq z.im)) (A := z.re ^ 2) (B := z.im ^ 2) (by rw [Real.norm_eq_abs, abs_of_nonneg p1])
    (by rw [Real.norm_eq_abs, abs_of_nonneg p2]) (by rw [Real.norm_eq_abs]; simpa using h1)
    (by rw [Real.norm_eq_abs]; simpa using h2) (by simpa [Real.norm_eq_abs] using hV.add (V.sq z.re) (V.sq z.im))
  simpa [Real.norm_eq_abs] using this

open Classical in
theorem flExpectLoop_near {V : VqeOps} {δ : ℝ} (hV : VqeAccurate V δ) (hδ : 0 ≤ δ) (hδ4 : δ ≤ 1 / 4) (mask : ℕ) :
    ∀ (l : List ℂ) (i k : ℕ) (c c' : PyDict ℕ ℝ), DictNear ((1 + δ) ^ (k + 2) - 1) c c' →
      DictNear ((1 + δ) ^ (k + l.length + 2) - 1) (flExpectLoop V mask i l c) (expectLoop mask i l c') := by
  intro l
  induction l with
  | nil => intro i k c c' h; exact h
  | cons z l ih =>
    intro i k c c' h
    simp only [flExpectLoop, expectLoop]
    have hz := flSquare_near hV hδ z
    have p0 : 0 ≤ z.re ^ 2 + z.im ^ 2 := by positivity
    have hiff : V.add (V.sq z.re) (V.sq z.im) ≠ 0 ↔ z.re ^ 2 + z.im ^ 2 ≠ 0 := by
      rw [not_iff_not]
      constructor
      · intro h0
        rw [h0, zero_sub, abs_neg, abs_of_nonneg p0] at hz
        have h9 : (1 + δ) ^ 2 - 1 ≤ 9 / 16 := by nlinarith
        have := hz.trans (mul_le_mul_of_nonneg_right h9 p0)
        linarith
      · intro h0
        rw [h0, mul_zero, sub_zero] at hz
        exact abs_eq_zero.1 (le_antisymm hz (abs_nonneg _))
    have hlen : k + (z :: l).length + 2 = (k + 1) + l.length + 2 := by simp; ring
    rw [hlen]
    refine ih (i + 1) (k + 1) _ _ ?_
    have hm : DictNear ((1 + δ) ^ (k + 1 + 2) - 1) c c' :=
      h.mono (sub_le_sub_right (pow_le_pow_right₀ (by linarith) (by omega)) 1)
    by_cases hp : z.re ^ 2 + z.im ^ 2 ≠ 0
    · rw [if_pos hp, if_pos (hiff.2 hp)]
      obtain ⟨g1, g2⟩ := h.get (i &&& mask)
      refine hm.set _ (by positivity) ?_
      have := relErr_step (E := ℝ) hδ (k := k + 2) (a := (c'.get (i &&& mask)).getD 0) (b := z.re ^ 2 + z.im ^ 2)
        (a' := (c.get (i &&& mask)).getD 0) (b' := V.add (V.sq z.re) (V.sq z.im))
        (s := V.add ((c.get (i &&& mask)).getD 0) (V.add (V.sq z.re) (V.sq z.im)))
        (A := (c'.get (i &&& mask)).getD 0) (B := z.re ^ 2 + z.im ^ 2)
        (by rw [Real.norm_eq_abs, abs_of_nonneg g1]) (by rw [Real.norm_eq_abs, abs_of_nonneg p0])
        (by rw [Real.norm_eq_abs]; exact g2)
        (by rw [Real.norm_eq_abs]; exact hz.trans (powErr_mono hδ (by omega) p0))
        (by simpa [Real.norm_eq_abs] using hV.add _ _)
      rw [Real.norm_eq_abs] at this
      exact this
    · rw [if_neg hp, if_neg (fun h => hp (hiff.1 h))]
      exact hm

/-- `expect` in rounded arithmetic has the keys of the exact one in the same order, and values with small relative
errors. -/
theorem flExpect_near {V : VqeOps} {δ : ℝ} (hV : VqeAccurate V δ) (hδ : 0 ≤ δ) (hδ4 : δ ≤ 1 / 4) (v : List ℂ)
    (meas : List ℤ) {d' : PyDict (List ℕ) ℝ} (h : expect v meas = .ok d') :
    ∃ d, flExpect V v meas = .ok d ∧ DictNear ((1 + δ) ^ (v.length + 2) - 1) d d' := by
  simp only [expect, flExpect] at h ⊢
  cases hm : expectMask meas 0 with
  | error e => rw [hm] at h; simp [bind, Except.bind] at h
  | ok mask =>
    rw [hm] at h
    simp only [bind, Except.bind, Except.ok.injEq] at h ⊢
    refine ⟨_, rfl, ?_⟩
    rw [← h]
    have := flExpectLoop_near hV hδ hδ4 mask v 0 0 [] [] .nil
    rw [zero_add] at this
    exact this.foldl _ .nil

/-! ## Sums -/

theorem flScale_near {V : VqeOps} {δ : ℝ} (hV : VqeAccurate V δ) (hδ : 0 ≤ δ) {k : ℕ} {x y : ℝ} (hy : 0 ≤ y)
    (h : |x - y| ≤ ((1 + δ) ^ k - 1) * y) (c : ℂ) :
    ‖V.scale x c - y * c‖ ≤ ((1 + δ) ^ (k + 1) - 1) * (‖c‖ * y) := by
  have h1 := hV.scale x c
  have e1 : V.scale x c - y * c = (V.scale x c - x * c) + ((x - y : ℝ) : ℂ) * c := by push_cast; ring
  have e2 : ‖((x - y : ℝ) : ℂ) * c‖ = |x - y| * ‖c‖ := by rw [norm_mul, Complex.norm_real, Real.norm_eq_abs]
  have e3 : ‖(x : ℂ) * c‖ = |x| * ‖c‖ := by rw [norm_mul, Complex.norm_real, Real.norm_eq_abs]
  have hx : |x| ≤ (1 + δ) ^ k * y := by
    have : x = (x - y) + y := by ring
    rw [this]
    refine (abs_add_le _ _).trans ?_
    rw [abs_of_nonneg hy]; linarith
  have hc := norm_nonneg c
  rw [e1]
  refine (norm_add_le _ _).trans ?_
  rw [e2]
  rw [e3] at h1
  have h2 : |x - y| * ‖c‖ ≤ ((1 + δ) ^ k - 1) * y * ‖c‖ := mul_le_mul_of_nonneg_right h hc
  have h3 : δ * (|x| * ‖c‖) ≤ δ * ((1 + δ) ^ k * y * ‖c‖) :=
    mul_le_mul_of_nonneg_left (mul_le_mul_of_nonneg_right hx hc) hδ
  have : ((1 + δ) ^ (k + 1) - 1) * (‖c‖ * y) = δ * ((1 + δ) ^ k * y * ‖c‖) + ((1 + δ) ^ k - 1) * y * ‖c‖ := by
    rw [pow_succ]; ring
  linarith

theorem flEnergySum_near {V : VqeOps} {δ : ℝ} (hV : VqeAccurate V δ) (hδ : 0 ≤ δ) (coeff : ℂ) {m : ℕ}
    {d d' : PyDict (List ℕ) ℝ} (hd : DictNear ((1 + δ) ^ m - 1) d d') : ∀ {k : ℕ} (hk : m + 1 ≤ k) {val val' : ℂ} {A : ℝ},
    ‖val'‖ ≤ A → ‖val - val'‖ ≤ ((1 + δ) ^ k - 1) * A →
    ‖energySum coeff d' val'‖ ≤ A + ‖coeff‖ * (d'.map Prod.snd).sum ∧
    ‖flEnergySum V coeff d val - energySum coeff d' val'‖ ≤
      ((1 + δ) ^ (k + d'.length) - 1) * (A + ‖coeff‖ * (d'.map Prod.snd).sum) := by
  induction hd with
  | nil => intro k hk val val' A h1 h2; simpa [energySum, flEnergySum] using ⟨h1, h2⟩
  | @cons a b l l' hab hl ih =>
    intro k hk val val' A h1 h2
    obtain ⟨a1, a2⟩ := a
    obtain ⟨b1, b2⟩ := b
    obtain ⟨rfl, hb, hab⟩ := hab
    simp only at hb hab
    have hs := flScale_near hV hδ hb hab coeff
    have hpos : 0 ≤ ‖coeff‖ * b2 := by positivity
    have hs' := hs.trans (powErr_mono hδ hk hpos)
    have hn : ‖(b2 : ℂ) * coeff‖ = ‖coeff‖ * b2 := by
      rw [norm_mul, Complex.norm_real, Real.norm_eq_abs, abs_of_nonneg hb, mul_comm]
    have e : k + (((a1, b2) :: l').length) = (k + 1) + l'.length := by simp; ring
    have e' : A + ‖coeff‖ * ((((a1, b2) :: l').map Prod.snd).sum) =
        (A + ‖coeff‖ * b2) + ‖coeff‖ * (l'.map Prod.snd).sum := by simp; ring
    rw [e, e']
    simp only [energySum, flEnergySum]
    by_cases hodd : a1.sum % 2 ≠ 0
    · simp only [if_pos hodd]
      refine ih (by omega) ?_ ?_
      · refine (norm_sub_le _ _).trans ?_
        rw [hn]; linarith
      · have := relErr_step hδ (k := k) (a := val') (b := -((b2 : ℂ) * coeff)) (a' := val) (b' := -V.scale a2 coeff)
          (s := V.csub val (V.scale a2 coeff)) (A := A) (B := ‖coeff‖ * b2) h1 (by rw [norm_neg, hn]) h2
          (by rw [neg_sub_neg, norm_sub_rev]; exact hs')
          (by simpa [sub_eq_add_neg] using hV.csub val (V.scale a2 coeff))
        simpa [sub_eq_add_neg] using this
    · simp only [if_neg hodd]
      refine ih (by omega) ?_ ?_
      · refine (norm_add_le _ _).trans ?_
        rw [hn]; linarith
      · exact relErr_step hδ (k := k) (a := val') (b := (b2 : ℂ) * coeff) (a' := val) (b' := V.scale a2 coeff)
          (s := V.cadd val (V.scale a2 coeff)) (A := A) (B := ‖coeff‖ * b2) h1 (by rw [hn]) h2 hs'
          (hV.cadd val (V.scale a2 coeff))

/-! ## The number of outcomes -/

/-- All lists of `m` bits. -/
def allBits : ℕ → List (List ℕ)
  | 0 => [[]]
  | m + 1 => (allBits m).map (0 :: ·) ++ (allBits m).map (1 :: ·)

theorem allBits_length (m : ℕ) : (allBits m).length = 2 ^ m := by
  induction m with
  | zero => rfl
  | succ m ih => simp [allBits, ih, pow_succ]; ring

theorem bitsAt_mem_allBits (meas : List ℕ) (i : ℕ) : bitsAt meas i ∈ allBits meas.length := by
  induction meas with
  | nil => simp [bitsAt, allBits]
  | cons q meas ih =>
    simp only [bitsAt] at ih
    simp only [bitsAt, List.map_cons, List.length_cons, allBits, List.mem_append, List.mem_map]
    by_cases h : i.testBit q
    · exact .inr ⟨_, ih, by simp [h]⟩
    · exact .inl ⟨_, ih, by simp [h]⟩

open Classical in
theorem outcomes_le {v : List ℂ} {meas : List ℕ} {d : PyDict (List ℕ) ℝ} (h2 : (d.map Prod.fst).Nodup)
    (h3 : ∀ key, d.get key = if outcomeProb v meas key = 0 then none else some (outcomeProb v meas key)) :
    d.length ≤ 2 ^ meas.length := by
  rw [← allBits_length, ← List.length_map (f := Prod.fst) (as := d)]
  refine (h2.subperm ?_).length_le
  intro key hkey
  have hg : d.get key ≠ none := by rw [Ne, PyDict.get_eq_none, not_not]; exact hkey
  rw [h3] at hg
  by_cases h0 : outcomeProb v meas key = 0
  · simp [h0] at hg
  · obtain ⟨i, hi, -⟩ := Finset.exists_ne_zero_of_sum_ne_zero h0
    rw [← (Finset.mem_filter.1 hi).2]
    exact bitsAt_mem_allBits meas i

/-! ## States -/

/-- The probabilities of two states together differ by little more than the states. -/
theorem squares_near (n : ℕ) (φ ψ : Vec) (B : ℝ) (hψ : normSqN n ψ = 1)
    (h : √(∑ i ∈ Finset.range (2 ^ n), ‖φ i - ψ i‖ ^ 2) ≤ B) :
    ∑ i ∈ Finset.range (2 ^ n), |‖φ i‖ ^ 2 - ‖ψ i‖ ^ 2| ≤ (1 + B) ^ 2 - 1 := by
  have hB : 0 ≤ B := (Real.sqrt_nonneg _).trans h
  have h2 : ∑ i ∈ Finset.range (2 ^ n), ‖φ i - ψ i‖ ^ 2 ≤ B ^ 2 := (Real.sqrt_le_left hB).1 h
  have hcs : ∑ i ∈ Finset.range (2 ^ n), ‖φ i - ψ i‖ * ‖ψ i‖ ≤ B := by
    have := Real.sum_mul_le_sqrt_mul_sqrt (Finset.range (2 ^ n)) (fun i => ‖φ i - ψ i‖) (fun i => ‖ψ i‖)
    rw [normSqN] at hψ
    rw [hψ, Real.sqrt_one, mul_one] at this
    exact this.trans h
  have hp : ∀ i, |‖φ i‖ ^ 2 - ‖ψ i‖ ^ 2| ≤ ‖φ i - ψ i‖ ^ 2 + 2 * (‖φ i - ψ i‖ * ‖ψ i‖) := by
    intro i
    have e := abs_le.1 (abs_norm_sub_norm_le (φ i) (ψ i))
    have p1 := norm_nonneg (φ i)
    have p2 := norm_nonneg (ψ i)
    have p3 := norm_nonneg (φ i - ψ i)
    generalize ‖φ i - ψ i‖ = x at *
    generalize ‖φ i‖ = a at *
    generalize ‖ψ i‖ = b at *
    refine abs_le.2 ⟨?_, ?_⟩ <;> nlinarith
  refine (Finset.sum_le_sum fun i _ => hp i).trans ?_
  rw [Finset.sum_add_distrib, ← Finset.mul_sum]
  nlinarith

end

end Blueqat
