import Verif.NbodyLemmas

/-!
# Property C52: reduction of many-body terms
-/

set_option linter.unusedSimpArgs false
set_option linter.unusedVariables false

namespace Blueqat

open Spec

noncomputable section

/-- C52. For a multilinear sum and fresh, different supplementary symbols, in every iteration order of sets:
`nbody_separation` ends. With enough symbols it returns `new_expr`, `constraints` and `mapping`, where both expressions are at
most quadratic; on bits the constraints are never negative; where they are 0, `new_expr` has the value of the given sum and
every symbol of `mapping` has the value of its product; and each assignment of bits has exactly one variant, different only
in symbols of `mapping`, where the constraints are 0. Without enough symbols it raises IndexError. -/
theorem C52_nbody (O : Set String) (args : List (SArg String)) (hargs : ∀ a ∈ args, a.Multilinear O) (qs : List String)
    (hq : qs.Nodup) (hO : ∀ v ∈ qs, v ∉ O) (ord : ℕ → List String → List String) (hord : ∀ k l, (ord k l).Perm l)
    (fuel : ℕ) (hfuel : ∀ a ∈ args, a.excess ≤ fuel) :
    (∃ new cons mapping, nbodySeparation (.add args) qs ord fuel = .ok (some (new, cons, mapping)) ∧
      (∀ m ∈ new, m.vs.length ≤ 2) ∧ (∀ m ∈ cons, m.vs.length ≤ 2) ∧
      (∀ ρ, BitValues ρ → 0 ≤ monosVal ρ cons) ∧
      (∀ ρ, BitValues ρ → monosVal ρ cons = 0 → monosVal ρ new = argsVal ρ args ∧
        ∀ a b v, ((a, b), v) ∈ mapping → ρ v = ρ a * ρ b) ∧
      (∀ v ∈ mapping.map Prod.snd, v ∈ qs) ∧
      (∀ ρ, BitValues ρ → ∃! ρ', BitValues ρ' ∧ (∀ s, s ∉ mapping.map Prod.snd → ρ' s = ρ s) ∧ monosVal ρ' cons = 0)) ∨
    (nbodySeparation (.add args) qs ord fuel = .error .indexError ∧ qs.length < (args.map SArg.excess).sum) := by
  have hi0 : NbInv O qs ⟨[], [], 0⟩ [] := ⟨by simp, by simp, rfl, by simp [PyDict.get], by simp, by simp, trivial⟩
  rcases nbodyArgs_ok O qs hq hO ord hord fuel args 0 ⟨[], [], 0⟩ [] [] (fun a ha => ⟨hargs a ha, hfuel a ha⟩) hi0 with
    ⟨s', new, ds, h1, -, h3, h4, h5⟩ | ⟨h1, h2⟩
  · left
    refine ⟨new, s'.constraints, s'.mapping, ?_, fun m hm => (h5 m hm).2, ?_, ?_, ?_, ?_, ?_⟩
    · simp only [nbodySeparation, h1, bind, Except.bind, pure, Except.pure, List.nil_append]
    · rw [h3.cons]; exact penalties_degree ds
    · rw [h3.cons]; exact fun ρ hρ => penalties_nonneg ρ hρ ds
    · rw [h3.cons]
      intro ρ hρ h0
      have hs := (penalties_zero ρ hρ ds).1 h0
      exact ⟨h4 ρ hs, fun a b v hm => hs _ (h3.mem _ _ hm)⟩
    · intro v hv
      obtain ⟨⟨k, v'⟩, hm, rfl⟩ := List.mem_map.1 hv
      have : v' ∈ ds.map NbDef.v := List.mem_map_of_mem (f := NbDef.v) (h3.mem k v' hm)
      rw [h3.names, List.mem_reverse] at this
      exact List.mem_of_mem_take this
    · intro ρ hρ
      have hv : ∀ x, x ∉ s'.mapping.map Prod.snd ↔ x ∉ ds.map NbDef.v := by
        intro x
        refine not_congr ⟨fun h => ?_, fun h => ?_⟩
        · obtain ⟨⟨k, v⟩, hm, rfl⟩ := List.mem_map.1 h
          exact List.mem_map_of_mem (f := NbDef.v) (h3.mem k v hm)
        · obtain ⟨d, hd, rfl⟩ := List.mem_map.1 h
          exact List.mem_map_of_mem (f := Prod.snd) (h3.full d hd)
      rw [h3.cons]
      have hb := extend_bits ds ρ hρ
      refine ⟨extend ds ρ, ⟨hb, fun x hx => extend_outside ds ρ x ((hv x).1 hx),
        (penalties_zero _ hb ds).2 (extend_sat O ds h3.wf ρ)⟩, ?_⟩
      rintro ρ' ⟨hb', ho, h0⟩
      refine sat_unique O ds h3.wf ρ' _ ((penalties_zero _ hb' ds).1 h0) (extend_sat O ds h3.wf ρ) (fun x hx => ?_)
      rw [ho x ((hv x).2 hx), extend_outside ds ρ x hx]
  · right
    refine ⟨?_, by simpa using h2⟩
    simp only [nbodySeparation, h1, bind, Except.bind]

/-- C52. With at least as many supplementary symbols as there are factors beyond two, there is no error. -/
theorem C52_enough (O : Set String) (args : List (SArg String)) (hargs : ∀ a ∈ args, a.Multilinear O) (qs : List String)
    (hq : qs.Nodup) (hO : ∀ v ∈ qs, v ∉ O) (ord : ℕ → List String → List String) (hord : ∀ k l, (ord k l).Perm l)
    (fuel : ℕ) (hfuel : ∀ a ∈ args, a.excess ≤ fuel) (hlen : (args.map SArg.excess).sum ≤ qs.length) :
    ∃ new cons mapping, nbodySeparation (.add args) qs ord fuel = .ok (some (new, cons, mapping)) := by
  rcases C52_nbody O args hargs qs hq hO ord hord fuel hfuel with ⟨new, cons, mapping, h, -⟩ | ⟨-, h⟩
  · exact ⟨new, cons, mapping, h⟩
  · omega

/-- C52. Anything but a sum raises AssertionError, and so does a sum whose first argument is a power. -/
theorem C52_assertion (a : SArg String) (v : String) (e : ℕ) (args : List (SArg String)) (qs : List String)
    (ord : ℕ → List String → List String) (fuel : ℕ) :
    nbodySeparation (.single a) qs ord fuel = .error .assertionError ∧
    nbodySeparation (.add (.pow v e :: args)) qs ord fuel = .error .assertionError := ⟨rfl, rfl⟩

/-- `q0*q1*q2*q3 - 2*q0*q1*q2 + q0 + 5` with three supplementary symbols. -/
example : ∃ new cons mapping, nbodySeparation (.add [.mul 1 ["q0", "q1", "q2", "q3"], .mul (-2) ["q0", "q1", "q2"], .sym "q0",
    .num 5]) ["q4", "q5", "q6"] (fun _ l => l) 2 = .ok (some (new, cons, mapping)) :=
  C52_enough {"q0", "q1", "q2", "q3"} _ (by simp [SArg.Multilinear]) _ (by simp) (by simp) _ (fun _ _ => List.Perm.refl _) 2
    (by simp [SArg.excess]) (by simp [SArg.excess])

end

end Blueqat
