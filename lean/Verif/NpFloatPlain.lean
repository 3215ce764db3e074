import Verif.NpPlain
import Verif.FloatKernels

/-! Lemmas: in rounded arithmetic too the effect of a gate on the numpy context is a function of the amplitudes, the
classical bits and the random numbers. The proofs are those of `Verif.NpPlain` with the arithmetic as a parameter. -/

set_option linter.unusedSimpArgs false
set_option linter.unusedVariables false

namespace Blueqat

open Spec

noncomputable section

variable (F : FloatOps)

theorem flBodyActs_of {n : ℕ} {body : ℤ → Bufs → Except PyErr Bufs} (W : ℕ → Vec → Vec)
    (hneg : ∀ t < 0, ∀ s, body t s = .error .valueError)
    (hok : ∀ t < n, ∀ ψ b, b.length = 2 ^ n → body (t : ℕ) (vec n ψ, b) = .ok (vec n (W t ψ), vec n ψ))
    (hbig : ∀ t ≥ n, ∀ q b, q.length = 2 ^ n → b.length = 2 ^ n → body (t : ℕ) (q, b) = .error .valueError)
    (t : ℤ) : BodyActs n (body t) := by
  by_cases h0 : t < 0
  · exact ⟨fun _ => .error .valueError, fun q b _ _ => hneg t h0 _⟩
  obtain ⟨t, rfl⟩ := Int.eq_ofNat_of_zero_le (not_lt.1 h0)
  by_cases h1 : t < n
  · refine ⟨fun q => .ok (vec n (W t (fun i => q.getD i 0))), fun q b hq hb => ?_⟩
    refine ⟨by simp, vec n (fun i => q.getD i 0), by simp, ?_⟩
    conv_lhs => rw [vec_getD n q hq]
    exact hok t h1 _ b hb
  · exact ⟨fun _ => .error .valueError, fun q b hq hb => hbig t (not_lt.1 h1) q b hq hb⟩

theorem flBodyY_acts (n : ℕ) (t : ℤ) : BodyActs n (flBodyY F n t) := by
  refine flBodyActs_of (body := flBodyY F n) _ (fun t ht s => by simp only [flBodyY, shl1_neg ht]; rfl)
    (fun t ht ψ b hb => flBodyY_vec F ht ψ b hb) (fun t ht q b hq hb => ?_) t
  simp only [flBodyY, shl1_nat, ok_bind, maskNe_big ht, maskEq_big ht, sel_replicate_false, flSmulA, List.map_nil,
    asg_empty]
  rfl

theorem flBodyH_acts (n : ℕ) (t : ℤ) : BodyActs n (flBodyH F n t) := by
  refine flBodyActs_of (body := flBodyH F n) _ (fun t ht s => by simp only [flBodyH, shl1_neg ht]; rfl)
    (fun t ht ψ b hb => flBodyH_vec F ht ψ b hb) (fun t ht q b hq hb => ?_) t
  simp only [flBodyH, shl1_nat, ok_bind, maskNe_big ht, maskEq_big ht, sel_replicate_false]
  rw [← hq, sel_replicate_true, hq]
  rcases add_empty F.add q (ne_nil_of_length hq) with h | h
  · rw [flAddA, h, ok_bind, asg_empty]; rfl
  · rw [flAddA, h]; rfl

theorem flBodyRot_acts (a b c d : ℂ) (n : ℕ) (t : ℤ) : BodyActs n (flBodyRot F a b c d n t) := by
  refine flBodyActs_of (body := flBodyRot F a b c d n) _
    (fun t ht s => by simp only [flBodyRot, shl1_neg ht]; rfl)
    (fun t ht ψ b' hb => flBodyRot_vec F a b c d ht ψ b' hb) (fun t ht q b' hq hb => ?_) t
  simp only [flBodyRot, shl1_nat, ok_bind, maskNe_big ht, maskEq_big ht, sel_replicate_false]
  rw [← hq, sel_replicate_true, hq]
  have hne : flSmulA F a q ≠ [] := ne_nil_of_length (n := n) (by simp [flSmulA, hq])
  rcases add_empty F.add _ hne with h | h
  · rw [flAddA, show flSmulA F b [] = [] from rfl, h, ok_bind, asg_empty]; rfl
  · rw [flAddA, show flSmulA F b [] = [] from rfl, h]; rfl

theorem length_flMulAt {q : Arr} {m : List Bool} {n : ℕ} (z : ℂ) (hq : q.length = 2 ^ n) (hm : m.length = 2 ^ n) :
    (flMulAt F q m z).length = 2 ^ n := by
  simp [flMulAt, hq, hm]

theorem length_flDivS (q : Arr) (x : ℝ) : (flDivS F q x).length = q.length := by simp [flDivS]

theorem flBodyU3_acts (a b c d : ℂ) (n : ℕ) (t : ℤ) : BodyActs n (flBodyU3 F a b c d n t) := by
  refine bodyActs_copy (fun q b => rfl) (fun q r hq h => ?_)
  obtain ⟨x1, _, h⟩ := bind_ok h
  obtain ⟨x2, h2, h⟩ := bind_ok h
  obtain ⟨x3, _, h⟩ := bind_ok h
  obtain ⟨x4, h4, h⟩ := bind_ok h
  obtain ⟨x5, h5, h⟩ := bind_ok h
  obtain ⟨x6, _, h⟩ := bind_ok h
  obtain ⟨x7, h7, h⟩ := bind_ok h
  cases h
  refine ⟨?_, hq⟩
  rw [length_asg h7, length_asg h5, length_asg h4, length_asg h2, hq]

theorem flBodyCRot_acts (a b c d : ℂ) (n : ℕ) (k t : ℤ) : BodyActs n (flBodyCRot F a b c d n k t) := by
  refine bodyActs_copy (fun q b => rfl) (fun q r hq h => ?_)
  obtain ⟨x1, _, h⟩ := bind_ok h
  obtain ⟨x2, _, h⟩ := bind_ok h
  obtain ⟨x3, _, h⟩ := bind_ok h
  obtain ⟨x4, h4, h⟩ := bind_ok h
  obtain ⟨x5, _, h⟩ := bind_ok h
  obtain ⟨x6, h6, h⟩ := bind_ok h
  cases h
  refine ⟨?_, hq⟩
  rw [length_asg h6, length_asg h4, hq]

theorem fl_keepsLen_phase (z : ℂ) (n : ℕ) (t : ℤ) : KeepsLen n (flBodyPhase F z n t) := by
  intro q q' hq h
  obtain ⟨b, _, h⟩ := bind_ok h
  cases h
  exact length_flMulAt F _ hq (length_maskNe _ _)

theorem fl_keepsLen_rz (z w : ℂ) (n : ℕ) (t : ℤ) : KeepsLen n (flBodyRZ F z w n t) := by
  intro q q' hq h
  obtain ⟨b, _, h⟩ := bind_ok h
  cases h
  exact length_flMulAt F _ (length_flMulAt F _ hq (length_maskEq _ _)) (length_maskNe _ _)

theorem fl_keepsLen_cphase (z : ℂ) (n : ℕ) (c t : ℤ) : KeepsLen n (flBodyCPhase F z n c t) := by
  intro q q' hq h
  obtain ⟨b, _, h⟩ := bind_ok h
  obtain ⟨b', _, h⟩ := bind_ok h
  cases h
  exact length_flMulAt F _ hq (length_maskAnd (length_maskNe _ _) (length_maskNe _ _))

theorem fl_keepsLen_crz (z w : ℂ) (n : ℕ) (c t : ℤ) : KeepsLen n (flBodyCRZ F z w n c t) := by
  intro q q' hq h
  obtain ⟨b, _, h⟩ := bind_ok h
  obtain ⟨b', _, h⟩ := bind_ok h
  cases h
  exact length_flMulAt F _ (length_flMulAt F _ hq (length_maskAnd (length_maskNe _ _) (length_maskEq _ _)))
    (length_maskAnd (length_maskNe _ _) (length_maskNe _ _))

theorem fl_actsU_ccz (n : ℕ) (T : Targets) : ActsU n (flGateCCZ F n T) := by
  refine ⟨fun q => (flGateCCZ F n T ⟨q, [], [], true, fun _ => 0⟩).map NpCtx.qubits, fun c hc => ?_⟩
  simp only [flGateCCZ]
  cases unpack3 T with
  | error e => rfl
  | ok p =>
    obtain ⟨c1, c2, t⟩ := p
    simp only [ok_bind]
    cases shl1Item c1 with
    | error e => rfl
    | ok b1 =>
      simp only [ok_bind]
      cases shl1Item c2 with
      | error e => rfl
      | ok b2 =>
        simp only [ok_bind]
        cases shl1Item t with
        | error e => rfl
        | ok b3 =>
          exact ⟨length_flMulAt F _ hc.1 (length_maskAnd (length_maskAnd (length_maskNe _ _) (length_maskNe _ _))
            (length_maskNe _ _)), c.buf, hc.2, rfl⟩

theorem fl_actsU_h (n : ℕ) (T : Targets) : ActsU n (flGateH F n T) := actsU_swap1 (flBodyH_acts F n) T

theorem fl_actsU_ccx (n : ℕ) (T : Targets) : ActsU n (flGateCCX F n T) := by
  have : flGateCCX F n T = fun c => (match unpack3 T with
      | .error e => .error e
      | .ok (_, _, t) => flGateH F n t.toTargets c >>= fun c => flGateCCZ F n T c >>= fun c => flGateH F n t.toTargets c) := by
    funext c
    simp only [flGateCCX]
    cases unpack3 T <;> rfl
  rw [this]
  cases unpack3 T with
  | error e => exact actsU_error n e
  | ok p =>
    obtain ⟨c1, c2, t⟩ := p
    exact (fl_actsU_h F n t.toTargets).bind ((fl_actsU_ccz F n T).bind (fl_actsU_h F n t.toTargets))

theorem flAction_actsU {n : ℕ} {g : Gate} {a : NpCtx → Except PyErr NpCtx} (h : flAction F n g = some a)
    (hm : g.isMeas = false) : ActsU n a := by
  cases g with
  | measure T => simp [Gate.isMeas] at hm
  | reset T => simp [Gate.isMeas] at hm
  | g3 k T =>
    cases k <;> simp only [flAction, Option.some.injEq, reduceCtorEq] at h <;> subst h
    · exact fl_actsU_ccx F n T
    · exact fl_actsU_ccz F n T
  | g2 k T =>
    cases k <;> simp only [flAction, Option.some.injEq, reduceCtorEq] at h <;> subst h
    · exact actsU_swap2 (bodyCX_acts n) T
    · exact actsU_inPlace2 (fl_keepsLen_cphase F _ n) T
    · exact actsU_swap2 (flBodyCRot_acts F _ _ _ _ n) T
    · exact actsU_swap2 (flBodyCRot_acts F _ _ _ _ n) T
    · exact actsU_inPlace2 (fl_keepsLen_crz F _ _ n) T
    · exact actsU_inPlace2 (fl_keepsLen_cphase F _ n) T
  | g1 k T =>
    cases k <;> simp only [flAction, Option.some.injEq, reduceCtorEq] at h <;> subst h
    · exact actsU_swap1 (bodyX_acts n) T
    · exact actsU_swap1 (flBodyY_acts F n) T
    · exact actsU_inPlace1 (fl_keepsLen_phase F _ n) T
    · exact actsU_swap1 (flBodyH_acts F n) T
    · exact actsU_inPlace1 (fl_keepsLen_phase F _ n) T
    · exact actsU_inPlace1 (fl_keepsLen_phase F _ n) T
    · exact actsU_swap1 (flBodyRot_acts F _ _ _ _ n) T
    · exact actsU_swap1 (flBodyRot_acts F _ _ _ _ n) T
    · exact actsU_inPlace1 (fl_keepsLen_rz F _ _ n) T
    · exact actsU_inPlace1 (fl_keepsLen_phase F _ n) T
    · exact actsU_inPlace1 (fl_keepsLen_rz F _ _ n) T
    · exact actsU_swap1 (flBodyU3_acts F _ _ _ _ n) T

theorem fl_runGate_actsU (n fuel : ℕ) : ∀ g : Gate, g.isMeas = false →
    ActsU n (runGate (flAction F n) n fuel g) := by
  induction fuel with
  | zero => intro g _; exact actsU_error n _
  | succ fuel ih =>
    intro g hm
    cases ha : flAction F n g with
    | some a =>
      have : runGate (flAction F n) n (fuel + 1) g = a := by funext c; simp only [runGate, ha]
      rw [this]; exact flAction_actsU F ha hm
    | none =>
      cases hf : g.fallback n with
      | error e =>
        have : runGate (flAction F n) n (fuel + 1) g = fun c => .error e := by
          funext c; simp only [runGate, ha, hf]
        rw [this]; exact actsU_error n e
      | ok gs =>
        have : runGate (flAction F n) n (fuel + 1) g =
            fun c => gs.foldlM (fun s g' => runGate (flAction F n) n fuel g' s) c := by
          funext c; simp only [runGate, ha, hf]
        rw [this]
        have hm' := fallback_not_meas hf
        clear this hf
        induction gs with
        | nil => exact actsU_pure n
        | cons g' gs ih' =>
          have h1 := ih g' (hm' g' (by simp))
          have h2 := ih' (fun g hg => hm' g (by simp [hg]))
          exact h1.bind h2

theorem flBodyMeasure_plain (n : ℕ) (t : ℤ) : BodyPlain n (flBodyMeasure F n t) := by
  refine bodyPlain_of (fun c => ?_) (fun c r hc h => ?_)
  · simp only [flBodyMeasure]
    cases shl1 t with
    | error e => rfl
    | ok b =>
      simp only [ok_bind]
      split_ifs
      · cases setCreg c.cregs t 0 <;> rfl
      · cases setCreg c.cregs t 1 <;> rfl
  · obtain ⟨b, _, h⟩ := bind_ok h
    simp only at h
    split_ifs at h <;> obtain ⟨cr, _, h⟩ := bind_ok h <;> cases h <;>
      simp only [length_flDivS]
    · exact length_setAt _ hc (length_maskNe _ _)
    · exact length_setAt _ hc (length_maskEq _ _)

theorem flBodyReset_plain (n : ℕ) (t : ℤ) : BodyPlain n (flBodyReset F n t) := by
  refine bodyPlain_of (fun c => ?_) (fun c r hc h => ?_)
  · simp only [flBodyReset]
    cases shl1 t with
    | error e => rfl
    | ok b =>
      simp only [ok_bind]
      split_ifs
      · rfl
      · cases asg c.qubits (maskEq n b) (sel c.qubits (maskNe n b)) <;> rfl
  · obtain ⟨b, _, h⟩ := bind_ok h
    simp only at h
    split_ifs at h
    · cases h
      simp only [length_flDivS]
      exact length_setAt _ hc (length_maskNe _ _)
    · obtain ⟨x, hx, h⟩ := bind_ok h
      cases h
      simp only [length_flDivS]
      exact length_setAt _ ((length_asg hx).trans hc) (length_maskNe _ _)

/-- The gate's effect is a function of the plain state; a measurement or reset clears the cache flag, any
other gate touches the amplitudes only and keeps the flag. -/
theorem flRunGate_plain (n : ℕ) (g : Gate) : ∃ U : PSt → Except PyErr PSt,
    (∀ c : NpCtx, c.Wf n → Match n c g.isMeas (U c.core) (runGate (flAction F n) n recursionLimit g c)) ∧
    (g.isMeas = false → ∃ U0 : Arr → Except PyErr Arr, ∀ p, U p = (U0 p.q).map (fun q => ⟨q, p.cr, p.rnd⟩)) := by
  by_cases hm : g.isMeas = true
  · have hB : ∃ f, BodyPlain n f ∧ ∀ c, runGate (flAction F n) n recursionLimit g c = (f c).map (fun c => { c with saveCache := false }) := by
      cases g with
      | measure T =>
        refine ⟨_, bodyPlain_forGen (slicing T n) (flBodyMeasure F n) (flBodyMeasure_plain F n), fun c => ?_⟩
        simp only [recursionLimit, runGate, flAction, flGateMeasure]
        cases forGen (slicing T n) (flBodyMeasure F n) c <;> rfl
      | reset T =>
        refine ⟨_, bodyPlain_forGen (slicing T n) (flBodyReset F n) (flBodyReset_plain F n), fun c => ?_⟩
        simp only [recursionLimit, runGate, flAction, flGateReset]
        cases forGen (slicing T n) (flBodyReset F n) c <;> rfl
      | g1 => simp [Gate.isMeas] at hm
      | g2 => simp [Gate.isMeas] at hm
      | g3 => simp [Gate.isMeas] at hm
    obtain ⟨f, ⟨V, hV⟩, hf⟩ := hB
    refine ⟨V, fun c hc => ?_, fun h => by rw [hm] at h; cases h⟩
    have h1 := hV c hc
    rw [hf, hm]
    simp only [Match]
    cases hv : V c.core with
    | error e => simp only [hv] at h1 ⊢; rw [h1]; rfl
    | ok p =>
      simp only [hv] at h1 ⊢
      obtain ⟨hl, he⟩ := h1
      refine ⟨hl, c.buf, hc.2, ?_⟩
      rw [he]; simp [Except.map]
  · have hm : g.isMeas = false := by simpa using hm
    obtain ⟨U0, hU⟩ := fl_runGate_actsU F n recursionLimit g hm
    refine ⟨fun p => (U0 p.q).map (fun q => ⟨q, p.cr, p.rnd⟩), fun c hc => ?_, fun _ => ⟨U0, fun p => rfl⟩⟩
    have h1 := hU c hc
    rw [hm]
    simp only [Match, NpCtx.core]
    cases hu : U0 c.qubits with
    | error e => simp only [hu] at h1 ⊢; exact h1
    | ok q =>
      simp only [hu] at h1 ⊢
      obtain ⟨hl, b, hb, he⟩ := h1
      refine ⟨hl, b, hb, ?_⟩
      rw [he]; simp

end

end Blueqat
