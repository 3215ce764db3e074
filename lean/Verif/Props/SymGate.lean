import Verif.SymGateLemmas
import Verif.Props.Sympy

/-!
# C78 (symbolic parameters: `to_unitary` commutes with inserting numbers), C79 (`ignore_global` with symbols)

`ρ` gives the symbols their values. `SGate.val ρ`, `SymMat.val ρ` (Verif/SymGateLemmas.lean) are the gate and the matrix with
the values inserted.
-/

set_option linter.unusedSimpArgs false
set_option linter.unusedVariables false

namespace Blueqat

open Spec

noncomputable section

/-- All parameters of the circuit are real numbers when the symbols have the values `ρ`. -/
def RealParams (ρ : String → ℂ) (gates : List SGate) : Prop := ∀ g ∈ gates, ∀ p ∈ g.params, p.RealAt ρ

/-- The symbol occurs in a parameter of the circuit. -/
def UsesSymbol (s : String) (gates : List SGate) : Prop := ∃ g ∈ gates, ∃ p ∈ g.params, p.Occurs s

/-- `expr == 0` answers True only for expressions that are 0 wherever they have a value. -/
def SoundZero (isZero : SE → Bool) : Prop := ∀ e, isZero e = true → ∀ ρ, e.Defined ρ → e.value ρ = 0

/-- The symbols of the expression have the property. -/
def SymbolsIn (Q : String → Prop) (e : SE) : Prop := ∀ s, e.Occurs s → Q s

theorem seSubs_defined (σ : String → Option SE) {ρ : String → ℂ} {e : SE} (h1 : ∀ s x, σ s = some x → x.Defined ρ)
    (h2 : e.Defined (fun s => ((σ s).getD (.sym s)).value ρ)) : (seSubs σ e).Defined ρ := by
  induction e with
  | sym s =>
    simp only [seSubs]
    cases h : σ s with
    | none => trivial
    | some x => exact h1 s x h
  | div a b iha ihb =>
    exact ⟨iha h2.1, ihb h2.2.1, by rw [seSubs_value]; exact h2.2.2⟩
  | add a b iha ihb => exact ⟨iha h2.1, ihb h2.2⟩
  | sub a b iha ihb => exact ⟨iha h2.1, ihb h2.2⟩
  | mul a b iha ihb => exact ⟨iha h2.1, ihb h2.2⟩
  | neg a ih => exact ih h2
  | cos a ih => exact ih h2
  | sin a ih => exact ih h2
  | exp a ih => exact ih h2
  | abs a ih => exact ih h2
  | num => trivial
  | pi => trivial
  | I => trivial

theorem seSubs_occurs (σ : String → Option SE) {Q : String → Prop} {e : SE} (h1 : ∀ s x, σ s = some x → ∀ t, x.Occurs t → Q t)
    (h2 : ∀ s, e.Occurs s → (σ s).isSome) : ∀ t, (seSubs σ e).Occurs t → Q t := by
  induction e with
  | sym s =>
    intro t ht
    have := h2 s rfl
    simp only [seSubs] at ht
    cases h : σ s with
    | none => rw [h] at this; simp at this
    | some x => rw [h] at ht; exact h1 s x h t ht
  | add a b iha ihb => exact fun t ht => ht.elim (iha (fun s hs => h2 s (.inl hs)) t) (ihb (fun s hs => h2 s (.inr hs)) t)
  | sub a b iha ihb => exact fun t ht => ht.elim (iha (fun s hs => h2 s (.inl hs)) t) (ihb (fun s hs => h2 s (.inr hs)) t)
  | mul a b iha ihb => exact fun t ht => ht.elim (iha (fun s hs => h2 s (.inl hs)) t) (ihb (fun s hs => h2 s (.inr hs)) t)
  | div a b iha ihb => exact fun t ht => ht.elim (iha (fun s hs => h2 s (.inl hs)) t) (ihb (fun s hs => h2 s (.inr hs)) t)
  | neg a ih => exact ih h2
  | cos a ih => exact ih h2
  | sin a ih => exact ih h2
  | exp a ih => exact ih h2
  | abs a ih => exact ih h2
  | num => exact fun t ht => ht.elim
  | pi => exact fun t ht => ht.elim
  | I => exact fun t ht => ht.elim

theorem defined_closed (ρ : String → ℂ) : EntryClosed (SE.Defined ρ) :=
  ⟨fun _ => trivial, fun _ _ h h' => ⟨h, h'⟩, fun _ _ h h' => ⟨h, h'⟩⟩

theorem sqrt2_value_ne (ρ : String → ℂ) : (SE.num √2).value ρ ≠ 0 := by simp [SE.value]

theorem two_value_ne (ρ : String → ℂ) : (SE.num 2).value ρ ≠ 0 := by simp [SE.value]

theorem symGate_defined {ρ : String → ℂ} (k : SG1) (G : SymMat) (h : ∀ p ∈ k.params, p.RealAt ρ) (hG : symGate k = some G) :
    G.All (SE.Defined ρ) := by
  have h2 := two_value_ne
  have hs := sqrt2_value_ne
  cases k <;> simp only [symGate, reduceCtorEq, Option.some.injEq] at hG <;> subst hG <;>
    simp only [SG1.params, List.mem_cons, List.not_mem_nil, or_false, forall_eq_or_imp, forall_eq] at h
  case x => exact all_lit trivial trivial trivial trivial
  case y => exact all_lit trivial trivial trivial trivial
  case z => exact all_lit trivial trivial trivial trivial
  case h => refine all_lit ?_ ?_ ?_ ?_ <;> exact ⟨trivial, trivial, hs _⟩
  case rx | ry | rz | phase =>
    intro i j
    refine seSubs_defined _ ?_ ?_
    · intro s x hx; simp only [substTheta] at hx; split_ifs at hx; obtain rfl := Option.some.inj hx; exact h.1
    · refine all_lit ?_ ?_ ?_ ?_ i j <;> simp [SE.Defined, sHalf, seTheta, seCisHalf, seCisNegHalf, SE.value]
  case u1 =>
    intro i j
    refine seSubs_defined _ ?_ ?_
    · intro s x hx
      simp only [substU] at hx
      split_ifs at hx <;> obtain rfl := Option.some.inj hx
      · exact h.1
      · trivial
      · trivial
    · refine all_lit ?_ ?_ ?_ ?_ i j <;> simp [SE.Defined, sHalf, seLambd, seCisHalf, seCisNegHalf, SE.value]
  case u2 =>
    intro i j
    refine seSubs_defined _ ?_ ?_
    · intro s x hx
      simp only [substU] at hx
      split_ifs at hx <;> obtain rfl := Option.some.inj hx
      · exact h.2.1
      · exact h.1.1
      · exact ⟨trivial, trivial, h2 _⟩
    · refine all_lit ?_ ?_ ?_ ?_ i j <;> simp [SE.Defined, sHalf, seLambd, sePhi, seCisHalf, seCisNegHalf, SE.value]
  case u3 =>
    intro i j
    refine seSubs_defined _ ?_ ?_
    · intro s x hx
      simp only [substU] at hx
      split_ifs at hx <;> obtain rfl := Option.some.inj hx
      · exact h.2.2.1
      · exact h.2.1.1
      · exact h.1.1
    · refine all_lit ?_ ?_ ?_ ?_ i j <;> simp [SE.Defined, sHalf, seTheta, seLambd, sePhi, seCisHalf, seCisNegHalf, SE.value]

theorem symbolsIn_closed (Q : String → Prop) : EntryClosed (SymbolsIn Q) :=
  ⟨fun _ _ h => h.elim, fun _ _ h h' s hs => hs.elim (h s) (h' s), fun _ _ h h' s hs => hs.elim (h s) (h' s)⟩

theorem symbolsIn_params (Q : String → Prop) : ParamClosed (SymbolsIn Q) :=
  ⟨fun _ _ h => h.elim, fun _ h s hs => hs.elim (h s) (fun h => h.elim), fun _ h => h,
   fun _ _ h h' s hs => hs.elim (h s) (h' s), fun _ _ h h' s hs => hs.elim (h s) (h' s)⟩

theorem symGate_symbols {Q : String → Prop} (k : SG1) (G : SymMat) (h : ∀ p ∈ k.params, SymbolsIn Q p) (hG : symGate k = some G) :
    G.All (SymbolsIn Q) := by
  have hn : ∀ c, SymbolsIn Q (.num c) := fun c s h => h.elim
  cases k <;> simp only [symGate, reduceCtorEq, Option.some.injEq] at hG <;> subst hG <;>
    simp only [SG1.params, List.mem_cons, List.not_mem_nil, or_false, forall_eq_or_imp, forall_eq] at h
  case x => exact all_lit (hn _) (hn _) (hn _) (hn _)
  case y => exact all_lit (hn _) (fun s h => h.elim) (fun s h => h.elim) (hn _)
  case z => exact all_lit (hn _) (hn _) (hn _) (hn _)
  case h => refine all_lit ?_ ?_ ?_ ?_ <;> exact fun s h => h.elim (fun h => h.elim) (fun h => h.elim)
  case rx | ry | rz | phase =>
    intro i j
    refine seSubs_occurs _ ?_ ?_
    · intro s x hx; simp only [substTheta] at hx; split_ifs at hx; obtain rfl := Option.some.inj hx; exact h
    · refine all_lit (P := SymbolsIn fun s => ((substTheta _) s).isSome = true) ?_ ?_ ?_ ?_ i j <;>
        simp [SymbolsIn, SE.Occurs, sHalf, seTheta, seCisHalf, seCisNegHalf, substTheta]
  case u1 =>
    intro i j
    refine seSubs_occurs _ ?_ ?_
    · intro s x hx
      simp only [substU] at hx
      split_ifs at hx <;> obtain rfl := Option.some.inj hx
      · exact h
      · exact hn _
      · exact hn _
    · refine all_lit (P := SymbolsIn fun s => ((substU _ _ _) s).isSome = true) ?_ ?_ ?_ ?_ i j <;>
        simp [SymbolsIn, SE.Occurs, sHalf, seLambd, seCisHalf, seCisNegHalf, substU]
  case u2 =>
    intro i j
    refine seSubs_occurs _ ?_ ?_
    · intro s x hx
      simp only [substU] at hx
      split_ifs at hx <;> obtain rfl := Option.some.inj hx
      · exact h.2
      · exact h.1
      · exact fun s h => h.elim (fun h => h.elim) (fun h => h.elim)
    · refine all_lit (P := SymbolsIn fun s => ((substU _ _ _) s).isSome = true) ?_ ?_ ?_ ?_ i j <;>
        simp [SymbolsIn, SE.Occurs, sHalf, seLambd, sePhi, seCisHalf, seCisNegHalf, substU]
  case u3 =>
    intro i j
    refine seSubs_occurs _ ?_ ?_
    · intro s x hx
      simp only [substU] at hx
      split_ifs at hx <;> obtain rfl := Option.some.inj hx
      · exact h.2.2
      · exact h.2.1
      · exact h.1
    · refine all_lit (P := SymbolsIn fun s => ((substU _ _ _) s).isSome = true) ?_ ?_ ?_ ?_ i j <;>
        simp [SymbolsIn, SE.Occurs, sHalf, seTheta, seLambd, sePhi, seCisHalf, seCisNegHalf, substU] <;>
        (rintro s ((rfl | rfl) | rfl) <;> simp)

/-! ## C78 -/

/-- C78: whatever the names of the user's symbols, inserting numbers into the symbolic unitary gives the unitary of the
circuit with these numbers as parameters. All entries have values. If one of the two calls raises, so does the other, with
the same exception. -/
theorem C78_commutes (isZero : SE → Bool) (n : ℕ) (gates : List SGate) (ρ : String → ℂ) (h : RealParams ρ gates) :
    (∀ S, symRun isZero n gates false = .ok S →
      syRun n (gates.map (SGate.val ρ)) false = .ok (S.val ρ) ∧ ∀ i j, (S.ent i j).Defined ρ) ∧
    (∀ e, symRun isZero n gates false = .error e → syRun n (gates.map (SGate.val ρ)) false = .error e) := by
  have key := symRun_val isZero n gates h
  refine ⟨fun S hS => ⟨?_, ?_⟩, fun e he => ?_⟩
  · rw [← key, hS]; rfl
  · exact all_symRun (defined_closed ρ) (realAt_closed ρ) symGate_defined isZero n gates h S hS
  · rw [← key, he]; rfl

/-- The circuit `u3(lambd, theta, phi)[0].crx(a)[0, 1]`, whose symbols have the names the backend uses itself. -/
def namesClash : List SGate := [.g1 (.u3 (.sym "lambd") (.sym "theta") (.sym "phi")) (.one (.int 0)),
  .g2 (.crx (.sym "a")) (.tup [.atom (.int 0), .atom (.int 1)])]

/-- The hypothesis holds for real values of the symbols. -/
example (r : String → ℝ) : RealParams (fun s => (r s : ℂ)) namesClash := by
  intro g hg p hp
  simp only [namesClash, List.mem_cons, List.not_mem_nil, or_false] at hg
  rcases hg with rfl | rfl <;> simp only [SGate.params, SG1.params, SG2.params, List.mem_cons, List.not_mem_nil, or_false] at hp
  · rcases hp with rfl | rfl | rfl <;> exact ⟨trivial, by simp [SE.value]⟩
  · subst hp; exact ⟨trivial, by simp [SE.value]⟩

/-- C78: only symbols of the circuit's parameters occur in the symbolic unitary. -/
theorem C78_symbols (isZero : SE → Bool) (n : ℕ) (gates : List SGate) (S : SymMat) (hS : symRun isZero n gates false = .ok S)
    (i j : ℕ) (s : String) (h : (S.ent i j).Occurs s) : UsesSymbol s gates :=
  all_symRun (symbolsIn_closed (UsesSymbol · gates)) (symbolsIn_params (UsesSymbol · gates)) symGate_symbols isZero n gates
    (fun g hg p hp s hs => ⟨g, hg, p, hp, hs⟩) S hS i j s h

/-- C78 together with C24: the symbolic unitary with numbers inserted, times a state, is what the numpy backend makes of the
state when it runs the circuit with these numbers. -/
theorem C78_simulation (isZero : SE → Bool) (n : ℕ) (hn : 0 < n) (gates : List SGate) (ρ : String → ℂ) (h : RealParams ρ gates)
    (es : List Elem) (hd : GatesDenote n (gates.map (SGate.val ρ)) es) (hv : ∀ e ∈ es, e.Valid n) (hu : ∀ e ∈ es, e.IsUnitary)
    (hz : NoCcz (gates.map (SGate.val ρ))) (hr : NoRepeat n (gates.map (SGate.val ρ))) :
    ∃ S, symRun isZero n gates false = .ok S ∧ IsSquare (2 ^ n) (S.val ρ).rows ∧
      ∀ (ψ : Vec) (buf : Arr), buf.length = 2 ^ n → ∀ (cregs : List ℕ) (save : Bool) (rnd : ℕ → ℝ),
        ∃ ctx, runGates (npAction n) n recursionLimit (gates.map (SGate.val ρ)) ⟨amplitudes n ψ, buf, cregs, save, rnd⟩ = .ok ctx ∧
          ctx.qubits = matVec (S.val ρ).rows (amplitudes n ψ) := by
  obtain ⟨M, h1, h2, h3⟩ := C24_to_unitary_partial n hn _ es hd hv hu hz hr
  cases hS : symRun isZero n gates false with
  | error e => rw [(C78_commutes isZero n gates ρ h).2 e hS] at h1; simp at h1
  | ok S =>
    rw [((C78_commutes isZero n gates ρ h).1 S hS).1] at h1
    obtain rfl := Except.ok.inj h1
    exact ⟨S, rfl, h2, h3⟩

/-- The hypotheses hold for `h[:].cu1(lambd)[0, 1]` at `lambd = 0.3`. -/
example : RealParams (fun _ => ((0.3 : ℝ) : ℂ)) [.g1 .h (.one (.slice none none none)),
      .g2 (.cu1 (.sym "lambd")) (.tup [.atom (.int 0), .atom (.int 1)])] ∧
    [SGate.g1 .h (.one (.slice none none none)), .g2 (.cu1 (.sym "lambd")) (.tup [.atom (.int 0), .atom (.int 1)])].map
      (SGate.val fun _ => ((0.3 : ℝ) : ℂ)) =
    [.g1 .h (.one (.slice none none none)), .g2 (.cu1 0.3) (.tup [.atom (.int 0), .atom (.int 1)])] := by
  constructor
  · intro g hg p hp
    simp only [List.mem_cons, List.not_mem_nil, or_false] at hg
    rcases hg with rfl | rfl <;> simp only [SGate.params, SG1.params, SG2.params, List.mem_cons, List.not_mem_nil, or_false] at hp
    subst hp; exact ⟨trivial, by simp [SE.value]⟩
  · simp only [List.map_cons, List.map_nil, SGate.val, SG1.val, SG2.val, SE.value, Complex.ofReal_re]

/-- C78 for `dagger()`: it commutes with inserting numbers, too. -/
theorem C78_dagger (g : SGate) (ρ : String → ℂ) :
    (∀ g', g.dagger = .ok g' → (g.val ρ).dagger = .ok (g'.val ρ)) ∧
    (∀ e, g.dagger = .error e → (g.val ρ).dagger = .error e) := by
  cases g with
  | g1 k T =>
    refine ⟨fun g' h => ?_, fun e h => by simp [SGate.dagger] at h⟩
    obtain rfl := Except.ok.inj h
    cases k <;> simp [SGate.val, Gate.dagger, SG1.val, SG1.dagger, G1.dagger, SE.value]
  | g2 k T =>
    refine ⟨fun g' h => ?_, fun e h => by simp [SGate.dagger] at h⟩
    obtain rfl := Except.ok.inj h
    cases k <;> simp [SGate.val, Gate.dagger, SG2.val, SG2.dagger, G2.dagger, SE.value]
  | g3 k T =>
    refine ⟨fun g' h => ?_, fun e h => by simp [SGate.dagger] at h⟩
    obtain rfl := Except.ok.inj h
    rfl
  | measure T =>
    refine ⟨fun g' h => by simp [SGate.dagger] at h, fun e h => ?_⟩
    simp only [SGate.dagger, Except.error.injEq] at h; subst h; rfl
  | reset T =>
    refine ⟨fun g' h => by simp [SGate.dagger] at h, fun e h => ?_⟩
    simp only [SGate.dagger, Except.error.injEq] at h; subst h; rfl

/-! ## C79 -/

/-- C79 in full: with `ignore_global`, too, numbers may be inserted afterwards. -/
def C79_full (isZero : SE → Bool) : Prop := ∀ (n : ℕ) (gates : List SGate) (ρ : String → ℂ), RealParams ρ gates →
  ∀ S, symRun isZero n gates true = .ok S →
    syRun n (gates.map (SGate.val ρ)) true = .ok (S.val ρ) ∧ ∀ i j, (S.ent i j).Defined ρ

theorem symRun_true {isZero : SE → Bool} {n : ℕ} {gates : List SGate} {N : SymMat} (h : symRun isZero n gates true = .ok N) :
    ∃ S, symRun isZero n gates false = .ok S ∧ N = symIgnoreGlobal isZero S := by
  simp only [symRun] at *
  cases hr : gates.foldlM (fun M g => symRunGate n recursionLimit g M) (SymMat.eye (2 ^ n)) with
  | error e => rw [hr] at h; exact absurd h (by simp [bind, Except.bind])
  | ok x =>
    rw [hr] at h
    exact ⟨x, rfl, (Except.ok.inj h).symm⟩

/-- C79 for values at which no diagonal entry of the symbolic unitary vanishes, except those that sympy has rewritten to 0:
`ignore_global` commutes with inserting numbers. -/
theorem C79_partial (isZero : SE → Bool) (hz : SoundZero isZero) (n : ℕ) (gates : List SGate) (ρ : String → ℂ)
    (h : RealParams ρ gates) (S N : SymMat) (hS : symRun isZero n gates false = .ok S) (hN : symRun isZero n gates true = .ok N)
    (hd : ∀ i < S.dim, (S.ent i i).value ρ = 0 → isZero (S.ent i i) = true) :
    syRun n (gates.map (SGate.val ρ)) true = .ok (N.val ρ) ∧ ∀ i j, (N.ent i j).Defined ρ := by
  obtain ⟨h1, h2⟩ := (C78_commutes isZero n gates ρ h).1 S hS
  obtain ⟨S', hS', rfl⟩ := symRun_true hN
  rw [hS] at hS'
  obtain rfl := Except.ok.inj hS'
  rw [syRun_true h1]
  have hf : (List.range (S.val ρ).dim).find? (fun i => decide ((S.val ρ).ent i i ≠ 0)) =
      (List.range S.dim).find? (fun i => !isZero (S.ent i i)) := by
    apply find_congr
    intro i hi
    simp only [SymMat.val]
    cases hb : isZero (S.ent i i) with
    | true => simp [hz _ hb ρ (h2 i i)]
    | false =>
      have : (S.ent i i).value ρ ≠ 0 := fun h0 => by rw [hd i hi h0] at hb; simp at hb
      simp [this]
  simp only [syIgnoreGlobal, symIgnoreGlobal, hf]
  cases hq : (List.range S.dim).find? (fun i => !isZero (S.ent i i)) with
  | none => exact ⟨rfl, h2⟩
  | some i =>
    have hi := List.mem_range.1 (List.mem_of_find?_eq_some hq)
    have hb : isZero (S.ent i i) = false := by simpa using List.find?_some hq
    refine ⟨rfl, fun a b => ⟨h2 a b, h2 i i, h2 i i, fun h0 => ?_⟩⟩
    rw [hd i hi h0] at hb; simp at hb

theorem find_first {p : ℕ → Bool} {i n : ℕ} (hi : i < n) (hp : p i = true) (hb : ∀ j < i, p j = false) :
    (List.range n).find? p = some i := by
  cases h : (List.range n).find? p with
  | none => exact absurd hp (by simpa using List.find?_eq_none.1 h i (List.mem_range.2 hi))
  | some k =>
    have hk := List.find?_some h
    have h1 : ¬ k < i := fun hlt => by rw [hb k hlt] at hk; simp at hk
    have h2 : ¬ i < k := fun hlt => by
      obtain ⟨-, as, bs, e, hno⟩ := List.find?_eq_some_iff_append.1 h
      have hl : as.length = k := by
        have := congrArg (fun l => l[as.length]?) e
        by_cases ha : as.length < n
        · simp [ha] at this; exact this
        · have := congrArg List.length e
          simp at this; omega
      have hm : i ∈ as := by
        have := congrArg (fun l => l[i]?) e
        simp [hi, List.getElem?_append_left (show i < as.length by omega)] at this
        exact List.mem_of_getElem? this.symm
      have := hno i hm
      rw [hp] at this
      simp at this
    rw [show k = i by omega]

/-- C79, exact: let `i` be the first diagonal entry that sympy has not rewritten to 0. Where it does not vanish, `ignore_global`
commutes with inserting numbers; where it vanishes, no entry of the result has a value. Without such an entry nothing is done, and
both agree. -/
theorem C79_exact (isZero : SE → Bool) (hz : SoundZero isZero) (n : ℕ) (gates : List SGate) (ρ : String → ℂ)
    (h : RealParams ρ gates) (S N : SymMat) (hS : symRun isZero n gates false = .ok S) (hN : symRun isZero n gates true = .ok N) :
    (∀ i < S.dim, isZero (S.ent i i) = false → (∀ j < i, isZero (S.ent j j) = true) →
      ((S.ent i i).value ρ ≠ 0 → syRun n (gates.map (SGate.val ρ)) true = .ok (N.val ρ) ∧ ∀ a b, (N.ent a b).Defined ρ) ∧
      ((S.ent i i).value ρ = 0 → ∀ a b, ¬(N.ent a b).Defined ρ)) ∧
    ((∀ i < S.dim, isZero (S.ent i i) = true) →
      syRun n (gates.map (SGate.val ρ)) true = .ok (N.val ρ) ∧ ∀ a b, (N.ent a b).Defined ρ) := by
  obtain ⟨h1, h2⟩ := (C78_commutes isZero n gates ρ h).1 S hS
  obtain ⟨S', hS', rfl⟩ := symRun_true hN
  rw [hS] at hS'
  obtain rfl := Except.ok.inj hS'
  rw [syRun_true h1]
  have hzero : ∀ j, isZero (S.ent j j) = true → decide ((S.val ρ).ent j j ≠ 0) = false := fun j hj => by
    simp [SymMat.val, hz _ hj ρ (h2 j j)]
  refine ⟨fun i hi hf hb => ?_, fun hall => ?_⟩
  · have e1 : (List.range S.dim).find? (fun i => !isZero (S.ent i i)) = some i :=
      find_first hi (by simp [hf]) (fun j hj => by simp [hb j hj])
    constructor
    · intro hv
      have e2 : (List.range (S.val ρ).dim).find? (fun i => decide ((S.val ρ).ent i i ≠ 0)) = some i :=
        find_first hi (decide_eq_true (show (S.ent i i).value ρ ≠ 0 from hv)) (fun j hj => hzero j (hb j hj))
      simp only [syIgnoreGlobal, symIgnoreGlobal, e1, e2]
      exact ⟨rfl, fun a b => ⟨h2 a b, h2 i i, h2 i i, hv⟩⟩
    · intro hv a b hd
      simp only [symIgnoreGlobal, e1] at hd
      exact hd.2.2.2 hv
  · have e1 : (List.range S.dim).find? (fun i => !isZero (S.ent i i)) = none :=
      List.find?_eq_none.2 (fun i hi => by simp [hall i (List.mem_range.1 hi)])
    have e2 : (List.range (S.val ρ).dim).find? (fun i => decide ((S.val ρ).ent i i ≠ 0)) = none :=
      List.find?_eq_none.2 (fun i hi => by rw [hzero i (hall i (List.mem_range.1 hi))]; simp)
    simp only [syIgnoreGlobal, symIgnoreGlobal, e1, e2]
    exact ⟨trivial, h2⟩

/-- `Circuit(1).rx(theta)[0]`. -/
def rxTheta : List SGate := [.g1 (.rx (.sym "theta")) (.one (.int 0))]

/-- The unitary of `Circuit(1).rx(theta)[0]`, as the model writes it. -/
def rxThetaMat : SymMat := (tmplRX.subs (substTheta (.sym "theta"))).mul (.eye (2 ^ 1))

theorem rxTheta_run (isZero : SE → Bool) : symRun isZero 1 rxTheta false = .ok rxThetaMat := rfl

theorem rxTheta_diag (i : ℕ) (hi : i < 2) (ρ : String → ℂ) : (rxThetaMat.ent i i).value ρ = Complex.cos (ρ "theta" / 2) := by
  interval_cases i <;> simp [rxThetaMat, SymMat.mul, tmplRX, SymMat.subs, SymMat.lit, SymMat.eye, seSum, SE.value, List.range_succ,
    seSubs, sHalf, seTheta, substTheta]

/-- The hypotheses of `C79_partial` hold for `rx(theta)` at `theta = 1`, for every sound test. -/
example (isZero : SE → Bool) : RealParams (fun _ => ((1 : ℝ) : ℂ)) rxTheta ∧
    ∀ i < rxThetaMat.dim, (rxThetaMat.ent i i).value (fun _ => ((1 : ℝ) : ℂ)) = 0 → isZero (rxThetaMat.ent i i) = true := by
  constructor
  · intro g hg p hp
    simp only [rxTheta, List.mem_cons, List.not_mem_nil, or_false] at hg
    subst hg
    simp only [SGate.params, SG1.params, List.mem_cons, List.not_mem_nil, or_false] at hp
    subst hp; exact ⟨trivial, by simp [SE.value]⟩
  · intro i hi h0
    rw [rxTheta_diag i hi] at h0
    have : Real.cos (1 / 2) = 0 := by
      have := congrArg Complex.re h0
      rw [show (((1 : ℝ) : ℂ) / 2) = ((1 / 2 : ℝ) : ℂ) by push_cast; ring, Complex.cos_ofReal_re] at this
      exact this
    exact absurd this (Real.cos_pos_of_mem_Ioo ⟨by linarith [Real.two_le_pi], by linarith [Real.two_le_pi]⟩).ne'

/-- There are sound tests. -/
example : SoundZero (fun _ => false) := fun e h => by simp at h

/-- In `rx(theta)` the first entry is not rewritten to 0 by a sound test; it vanishes at `theta = pi`, not at `theta = 0`. -/
example (isZero : SE → Bool) (hz : SoundZero isZero) : isZero (rxThetaMat.ent 0 0) = false ∧
    (rxThetaMat.ent 0 0).value (fun _ => ((Real.pi : ℝ) : ℂ)) = 0 ∧ (rxThetaMat.ent 0 0).value (fun _ => 0) ≠ 0 := by
  have hd0 : (rxThetaMat.ent 0 0).Defined (fun _ => 0) := by
    simp [rxThetaMat, SymMat.mul, tmplRX, SymMat.subs, SymMat.lit, SymMat.eye, seSum, SE.value, List.range_succ,
      seSubs, sHalf, seTheta, substTheta, SE.Defined]
  refine ⟨?_, by rw [rxTheta_diag 0 (by omega)]; simp, by rw [rxTheta_diag 0 (by omega)]; simp⟩
  by_contra hb
  have := hz _ (by simpa using hb) _ hd0
  rw [rxTheta_diag 0 (by omega)] at this
  simp at this

/-- C79 is false in general, for every sound test: `rx(theta)` with `ignore_global` has the entry
`cos(theta/2) * Abs(cos(theta/2)) / cos(theta/2)`, a division by 0 at `theta = pi`. -/
theorem C79_refuted (isZero : SE → Bool) (hz : SoundZero isZero) : ¬ C79_full isZero := by
  intro h
  have hd0 : (rxThetaMat.ent 0 0).Defined (fun _ => 0) := by
    simp [rxThetaMat, SymMat.mul, tmplRX, SymMat.subs, SymMat.lit, SymMat.eye, seSum, SE.value, List.range_succ,
      seSubs, sHalf, seTheta, substTheta, SE.Defined]
  have hf : isZero (rxThetaMat.ent 0 0) = false := by
    by_contra hb
    have := hz _ (by simpa using hb) _ hd0
    rw [rxTheta_diag 0 (by omega)] at this
    simp at this
  have hfind : (List.range rxThetaMat.dim).find? (fun i => !isZero (rxThetaMat.ent i i)) = some 0 := by
    simp [show rxThetaMat.dim = 2 from rfl, List.range_succ, hf]
  have hrun : symRun isZero 1 rxTheta true = .ok (symIgnoreGlobal isZero rxThetaMat) := rfl
  obtain ⟨-, hD⟩ := h 1 rxTheta (fun _ => ((Real.pi : ℝ) : ℂ)) (by
    intro g hg p hp
    simp only [rxTheta, List.mem_cons, List.not_mem_nil, or_false] at hg
    subst hg
    simp only [SGate.params, SG1.params, List.mem_cons, List.not_mem_nil, or_false] at hp
    subst hp; exact ⟨trivial, by simp [SE.value]⟩) _ hrun
  have := hD 0 0
  simp only [symIgnoreGlobal, hfind] at this
  exact this.2.2.2 (by rw [rxTheta_diag 0 (by omega)]; simp)

end

end Blueqat
