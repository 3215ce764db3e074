import Verif.Props.Program
import Verif.Props.BornCounts

/-!
# C109: distribution of the counts in ordinary programs
-/

set_option linter.unusedSimpArgs false
set_option linter.unusedVariables false

namespace Blueqat

open Spec MeasureTheory

noncomputable section

/-- How often the bits `key` occur in what an action returned (0 if that is no counter). -/
def countReturned {R : Type} (res : Except PyErr (Out (StdVal ⊕ R))) (key : String) : ℕ :=
  match res with
  | .ok (.result (.inl (.sim (.shots c, _)))) => countOf c key
  | _ => 0

variable {V M C B R : Type} (fmt : ℝ → String) (other : Kit C B CallArgs R) (isAttr : String → Bool)

/-- C109 (distribution): after any ordinary program, for a circuit with valid targets, measurements and resets included, the counts that
`run(shots=k)` returns on numpy and on numba follow the multinomial distribution of the Born probabilities of the circuit, and the relative
frequency of every outcome tends to its Born probability with more and more shots, almost surely. The random numbers of this run are
independent and uniform. -/
theorem C109_born (b : StdObj ⊕ B) (gates : PyDict String V) (ibmq qgate : C)
    (h : List (Cmd V M (StdClass ⊕ C) CallArgs)) (hh : ∀ c ∈ h, Ordinary c) :
    let w := (World.start b (initTables (M := M) gates ibmq qgate)).exec (stdKit fmt other) isAttr h
    ∀ j < w.nCircs, ∀ es : List Elem, GatesDenote (view w j).n (view w j).ops es → (∀ e ∈ es, e.Valid (view w j).n) →
      0 < (view w j).n → (view w j).n ≤ 64 → ∀ name, name = "numpy" ∨ name = "numba" →
      (∀ (S : Finset String) (c : String → ℕ),
        randoms {r | ∀ key ∈ S, countReturned (w.step (stdKit fmt other) isAttr
            (.run j (selOf (some name)) (shotsArgs (∑ x ∈ S, c x) r))).2 key = c key} =
          ENNReal.ofReal (Nat.multinomial S c * ∏ key ∈ S, bornShot (view w j).n es key ^ c key)) ∧
      ∀ key, ∀ᵐ r ∂randoms, Filter.Tendsto (fun k : ℕ => (countReturned (w.step (stdKit fmt other) isAttr
            (.run j (selOf (some name)) (shotsArgs k r))).2 key : ℝ) / k) Filter.atTop (nhds (bornShot (view w j).n es key)) := by
  intro w j hj es hd hv hpos h64 name hname
  have hist := C109_history fmt other isAttr b gates ibmq qgate h hh j hj
  have heq : ∀ (k : ℕ) (r : ℕ → ℝ), InUnit r → ∀ key, countReturned (w.step (stdKit fmt other) isAttr
      (.run j (selOf (some name)) (shotsArgs k r))).2 key =
      countIn (freshRun (view w j).n (view w j).ops ⟨some k, none, false, r⟩) key := by
    intro k r hr key
    obtain ⟨c, rest, h1, -⟩ := C16_counts_exact (view w j).n hpos (view w j).ops es hd hv k false r hr
    obtain ⟨c', rest', h2, h3⟩ := C109_counts fmt other isAttr b gates ibmq qgate h hh j hj es hd hv hpos h64 k r hr
    rw [h2 name hname]
    have e1 : onNewObject fmt .numpy (view w j).n (view w j).ops (shotsArgs k r) =
        (freshRun (view w j).n (view w j).ops ⟨some k, none, false, r⟩).map .sim := rfl
    have h4 := (hist "numpy" .numpy rfl (shotsArgs k r) rfl).1 (some "numpy") rfl
    rw [h2 "numpy" (.inl rfl), e1, h1] at h4
    rw [h1]
    simp only [Except.map, Except.ok.injEq, Out.result.injEq, Sum.inl.injEq, StdVal.sim.injEq, Prod.mk.injEq, NpVal.shots.injEq] at h4
    obtain ⟨rfl, -⟩ := h4
    rfl
  refine ⟨fun S c => ?_, fun key => ?_⟩
  · rw [← C83_multinomial (view w j).n hpos (view w j).ops es hd hv false S c]
    refine measure_congr ?_
    filter_upwards [randoms_inUnit] with r hr
    refine propext ?_
    show (∀ key ∈ S, _ = _) ↔ ∀ key ∈ S, _ = _
    refine forall₂_congr fun key _ => ?_
    rw [heq _ r hr key]
  · filter_upwards [C83_frequency (view w j).n hpos (view w j).ops es hd hv false key, randoms_inUnit] with r h1 hr
    refine h1.congr fun k => ?_
    rw [heq k r hr key]

end

/-- A program that runs a circuit, measures it and runs it again. -/
def measureDemo (rnd : ℕ → ℝ) : List (Cmd Unit Unit (StdClass ⊕ Unit) CallArgs) :=
  [.new 1, .append 0 (.g1 .h (.one (.int 0))), .run 0 .none (plainArgs rnd), .append 0 (.measure (.one (.int 0)))]

seal StdObj.run StdObj.makeCache in
/-- The hypotheses of `C109_born` hold for this program and its circuit (`Circuit(1).h[0].m[0]`). -/
example (fmt : ℝ → String) (rnd : ℕ → ℝ) :
    let w := (World.start (.inr ()) (initTables [] () ())).exec (stdKit fmt noOther) (fun _ => false) (measureDemo rnd)
    (∀ c ∈ measureDemo rnd, Ordinary c) ∧ w.nCircs = 1 ∧ (view w 0).n = 1 ∧
    (view w 0).ops = [.g1 .h (.one (.int 0)), .measure (.one (.int 0))] ∧
    GatesDenote 1 [.g1 .h (.one (.int 0)), .measure (.one (.int 0))] [.one .h 0, .meas 0] ∧
    ∀ e ∈ [Elem.one .h 0, .meas 0], e.Valid 1 := by
  intro w
  refine ⟨?_, rfl, rfl, rfl, ⟨[.one .h 0], [.meas 0], ⟨[0], by rw [← slicing_eq_iff]; rfl, rfl⟩,
    ⟨[.meas 0], [], ⟨[0], by rw [← slicing_eq_iff]; rfl, rfl⟩, rfl, rfl⟩, rfl⟩, by simp [Elem.Valid]⟩
  intro c hc
  simp only [measureDemo, List.mem_cons, List.not_mem_nil, or_false] at hc
  rcases hc with rfl | rfl | rfl | rfl <;>
    exact ⟨by simp [NoDaggerCopy], by simp [Uninterrupted, plainArgs], fun name hn => by simp [NamesBackend]⟩

end Blueqat
