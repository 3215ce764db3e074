import Verif.Props.Compose

/-!
# Property C12: what the dagger of a circuit inverts
-/

set_option linter.unusedSimpArgs false
set_option linter.unusedVariables false

namespace Blueqat

open Spec

theorem unitaries_reverse_inv {n : ℕ} {ph : ℝ → ℂ} (hph : ∀ x, ph (-x) * ph x = 1) (es : List Elem)
    (hv : ∀ e ∈ es, e.Valid n) (ψ : Vec) :
    unitaries ph (es.map Elem.inv) (unitaries ph es.reverse ψ) = ψ ∧
      unitaries ph es.reverse (unitaries ph (es.map Elem.inv) ψ) = ψ := by
  induction es generalizing ψ with
  | nil => exact ⟨rfl, rfl⟩
  | cons e es ih =>
    have ih' := fun ψ => ih (fun f hf => hv f (by simp [hf])) ψ
    have hve := hv e (by simp)
    have h1 : ∀ (e : Elem) (es : List Elem) (χ : Vec), unitaries ph (e :: es) χ = unitaries ph es (e.unitary ph χ) := fun _ _ _ => rfl
    rw [List.reverse_cons, List.map_cons, unitaries_append, unitaries_append, h1, h1, h1]
    constructor
    · show unitaries ph (es.map Elem.inv) (e.inv.unitary ph (e.unitary ph (unitaries ph es.reverse ψ))) = ψ
      rw [elem_inv hph e hve]
      exact (ih' ψ).1
    · show e.unitary ph (unitaries ph es.reverse (unitaries ph (es.map Elem.inv) (e.inv.unitary ph ψ))) = ψ
      rw [(ih' _).2]
      exact elem_inv_inv_left hph e hve ψ

theorem daggerGates_reversed {n : ℕ} (gs : List Gate) : ∀ (rs : List Elem), GatesReversed n gs rs →
    (∀ g ∈ gs, ¬ NonUnitary g) → (∀ e ∈ rs, e.Valid n) →
    ∃ ds, GatesDenote n (gs.reverse.filterMap (fun g => g.dagger.toOption)) ds ∧ (∀ e ∈ ds, e.Valid n) ∧
      (∀ ph, (∀ x, ph (-x) * ph x = 1) → ∀ ψ, unitaries ph ds (unitaries ph rs ψ) = ψ ∧ unitaries ph rs (unitaries ph ds ψ) = ψ) := by
  induction gs with
  | nil => intro rs hd _ _; simp only [GatesReversed] at hd; subst hd; exact ⟨[], rfl, by simp, fun _ _ ψ => ⟨rfl, rfl⟩⟩
  | cons g gs ih =>
    rintro rs ⟨e1, e2, h1, h2, rfl⟩ hnu hv
    obtain ⟨ds, hds, hval, hinv⟩ := ih e2 h2 (fun g hg => hnu g (by simp [hg])) (fun e he => hv e (by simp [he]))
    obtain ⟨g', hg'⟩ : ∃ g', g.dagger = .ok g' := by
      have := hnu g (by simp)
      cases g <;> simp [NonUnitary, Gate.dagger] at this ⊢
    have hden := gateDenotes_dagger h1 hg'
    have hv1 : ∀ e ∈ e1, e.Valid n := fun e he => hv e (by simp [he])
    refine ⟨ds ++ e1.map Elem.inv, ?_, ?_, ?_⟩
    · rw [List.reverse_cons, List.filterMap_append]
      refine gatesDenote_append hds ?_
      simp only [List.filterMap_cons, List.filterMap_nil, hg', Except.toOption]
      exact ⟨_, [], hden, rfl, by simp⟩
    · intro e he
      rcases List.mem_append.1 he with h | h
      · exact hval e h
      · obtain ⟨f, hf, rfl⟩ := List.mem_map.1 h
        exact (elem_inv_valid f).2 (hv1 f hf)
    · intro ph hph ψ
      rw [unitaries_append, unitaries_append, unitaries_append, unitaries_append, (hinv ph hph _).1,
        (unitaries_reverse_inv hph e1 hv1 _).2]
      exact ⟨(unitaries_reverse_inv hph e1 hv1 ψ).1, (hinv ph hph ψ).2⟩

/-- The amplitudes of `n` qubits after valid operations depend on the amplitudes before only. -/
theorem unitaries_local {n : ℕ} {ph : ℝ → ℂ} (hph : ∀ x, ‖ph x‖ = 1) (es : List Elem) (hv : ∀ e ∈ es, e.Valid n) {ψ χ : Vec}
    (h : ∀ i < 2 ^ n, ψ i = χ i) : ∀ i < 2 ^ n, unitaries ph es ψ i = unitaries ph es χ i := by
  have h1 := (isom_unitaries hph es hv).norm (fun i => 1 * ψ i + (-1) * χ i)
  rw [unitaries_lin] at h1
  have h2 : normSqN n (fun i => 1 * ψ i + (-1) * χ i) = 0 := by
    rw [normSqN]
    exact Finset.sum_eq_zero fun i hi => by simp [h i (Finset.mem_range.1 hi)]
  rw [h2, normSqN, Finset.sum_eq_zero_iff_of_nonneg (fun i _ => sq_nonneg _)] at h1
  intro i hi
  have h3 := norm_eq_zero.1 (pow_eq_zero_iff (two_ne_zero)|>.1 (h1 i (Finset.mem_range.2 hi)))
  linear_combination h3

section
variable {V M C B A R : Type} (kit : Kit C B A R) (isAttr : String → Bool)

/-- C12, exactly: the dagger of a circuit inverts the circuit in which the pairs of every gate object are applied in the reverse
order (`rs`); running `c + c.dagger()` on the numpy simulator gives every vector back if and only if the circuit does not depend
on that order. -/
theorem C12_exact (b : B) (reg : Registry V M C) (h : List (Cmd V M C A)) (i : ℕ) :
    let w := (World.start b reg).exec kit isAttr h
    let w' := w.exec kit isAttr [.dagger i false false false, .add i w.nCircs]
    let n := (view w i).n
    ∀ es rs, i < w.nCircs → GatesDenote n (view w i).ops es → GatesReversed n (view w i).ops rs → (∀ e ∈ es, e.Valid n) →
      (∀ e ∈ rs, e.Valid n) → (∀ g ∈ (view w i).ops, ¬ NonUnitary g) →
      (∃ ds, GatesDenote n ((view w i).ops.reverse.filterMap (fun g => g.dagger.toOption)) ds ∧ (∀ e ∈ ds, e.Valid n) ∧
        GatesDenote n (view w' (w.nCircs + 1)).ops (es ++ ds) ∧
        ∀ ph, ph = phDoc ∨ ph = phSim → ∀ ψ, unitaries ph ds (unitaries ph rs ψ) = ψ ∧ unitaries ph rs (unitaries ph ds ψ) = ψ) ∧
      ((∀ ctx : NpCtx, ctx.qubits.length = 2 ^ n → ctx.buf.length = 2 ^ n →
        ∃ ctx', runGates (npAction n) n recursionLimit (view w' (w.nCircs + 1)).ops ctx = .ok ctx' ∧
          ctx'.qubits = ctx.qubits) ↔
        ∀ ψ, amplitudes n (unitaries phSim es ψ) = amplitudes n (unitaries phSim rs ψ)) := by
  intro w w' n es rs hi hd hr hv hvr hno
  obtain ⟨hops, hn⟩ := dagger_add_ops kit isAttr b reg h i hi hno
  obtain ⟨ds, h1, h2, h3⟩ := daggerGates_reversed _ rs hr hno hvr
  have hu : ∀ e ∈ es, e.IsUnitary := elems_unitary hd hno
  have hden : GatesDenote n (view w' (w.nCircs + 1)).ops (es ++ ds) := by
    show GatesDenote n (view (w.exec kit isAttr [.dagger i false false false, .add i w.nCircs]) (w.nCircs + 1)).ops _
    rw [hops]; exact gatesDenote_append hd h1
  have hph : ∀ ph, ph = phDoc ∨ ph = phSim → ∀ x, ph (-x) * ph x = 1 := by
    rintro ph (rfl | rfl)
    · exact ph_neg_phDoc
    · exact ph_neg_phSim
  refine ⟨⟨ds, h1, h2, hden, fun ph hp ψ => h3 ph (hph ph hp) ψ⟩, ?_⟩
  have hva : ∀ e ∈ es ++ ds, e.Valid n := fun e he => by
    rcases List.mem_append.1 he with h | h
    · exact hv e h
    · exact h2 e h
  have hud : ∀ e ∈ ds, e.IsUnitary := elems_unitary h1 (by
    intro g hg
    obtain ⟨g0, hg0, hg1⟩ := List.mem_filterMap.1 hg
    have := hno g0 (by simpa using hg0)
    cases g0 <;> simp [NonUnitary, Gate.dagger, Except.toOption] at this hg1 <;> subst hg1 <;> exact fun h => h)
  have hua : ∀ e ∈ es ++ ds, e.IsUnitary := fun e he => by
    rcases List.mem_append.1 he with h | h
    · exact hu e h
    · exact hud e h
  have hinv := h3 phSim ph_neg_phSim
  constructor
  · intro hrun ψ
    obtain ⟨ctx', h4, h5⟩ := hrun ⟨vec n ψ, vec n ψ, [], true, fun _ => 0⟩ (by simp [vec]) (by simp [vec])
    obtain ⟨b', s', -, he⟩ := npRunGates_state _ (es ++ ds) hden hva hua ψ (vec n ψ) (by simp [vec]) [] true (fun _ => 0)
    rw [he] at h4
    cases h4
    have h6 : ∀ i < 2 ^ n, unitaries phSim ds (unitaries phSim es ψ) i = ψ i := by
      rw [← unitaries_append]
      exact vec_inj h5
    have h7 := unitaries_local norm_phSim rs hvr h6
    rw [(hinv _).2] at h7
    exact vec_congr h7
  · intro hsame ctx hq hb
    obtain ⟨q, buf, cr, sv, rnd⟩ := ctx
    simp only at hq hb
    obtain ⟨b', s', -, he⟩ := npRunGates_state _ (es ++ ds) hden hva hua (fun i => q.getD i 0) buf hb cr sv rnd
    rw [vec_of_list q hq] at he
    refine ⟨_, he, ?_⟩
    simp only [unitaries_append]
    rw [← vec_of_list q hq]
    conv_rhs => rw [← (hinv (fun i => q.getD i 0)).1]
    rw [vec_of_list q hq]
    refine vec_congr ?_
    exact unitaries_local norm_phSim ds h2 (vec_inj (hsame _))

/-- Every circuit has such operations `rs`: they exist whenever the targets denote operations, and are valid with them. -/
theorem gatesReversed_exists {n : ℕ} (gs : List Gate) : ∀ es, GatesDenote n gs es →
    ∃ rs, GatesReversed n gs rs ∧ ∀ e, e ∈ rs ↔ e ∈ es := by
  induction gs with
  | nil => intro es h; simp only [GatesDenote] at h; subst h; exact ⟨[], rfl, by simp⟩
  | cons g gs ih =>
    rintro es ⟨e1, e2, h1, h2, rfl⟩
    obtain ⟨rs, h3, h4⟩ := ih e2 h2
    exact ⟨e1.reverse ++ rs, ⟨e1, rs, h1, h3, rfl⟩, fun e => by simp [h4]⟩

end

/-- `cx[0:2, 1:3]`: the circuit is CX(0,1) CX(1,2), its dagger inverts CX(1,2) CX(0,1), and the two differ on the basis state
with qubit 0 set. -/
example : GatesReversed 3 [.g2 .cx (.tup [.tup [.int 0, .int 1], .tup [.int 1, .int 2]])] [.two .cx 1 2, .two .cx 0 1] ∧
    amplitudes 3 (unitaries phSim [.two .cx 0 1, .two .cx 1 2] (fun i => if i = 1 then 1 else 0)) ≠
      amplitudes 3 (unitaries phSim [.two .cx 1 2, .two .cx 0 1] (fun i => if i = 1 then 1 else 0)) := by
  have hpd : PairsDenote ((3 : ℕ) : ℤ) (.tup [.tup [.int 0, .int 1], .tup [.int 1, .int 2]])
      ([(0, 1), (1, 2)].map (fun p : ℕ × ℕ => ((p.1 : Int), (p.2 : Int)))) := by
    rw [← pairsDenote_iff]; rfl
  refine ⟨⟨_, [], ⟨[(0, 1), (1, 2)], hpd, rfl⟩, rfl, rfl⟩, ?_⟩
  intro h
  have h3 := congrArg (fun l => l.getD 3 0) h
  simp [amplitudes, unitaries, Elem.unitary, op2, ctrl, app, mX, flipBit, Nat.testBit] at h3

end Blueqat
