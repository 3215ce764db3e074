import Verif.Spec.World
import Mathlib.Tactic.SplitIfs

/-! Lemmas: the heap of circuits never contains shared objects. -/

set_option linter.unusedSimpArgs false
set_option linter.unusedVariables false

namespace Blueqat

open Spec

section
variable {V M C B A R : Type}

/-- No list and no backend instance belongs to two circuits, all addresses are allocated. -/
structure World.WF (w : World V M C B) : Prop where
  ops_lt : ∀ i < w.nCircs, (w.circs i).ops < w.nLists
  ops_inj : ∀ i < w.nCircs, ∀ j < w.nCircs, i ≠ j → (w.circs i).ops ≠ (w.circs j).ops
  bes_lt : ∀ i < w.nCircs, ∀ p ∈ (w.circs i).bes, p.2 < w.nBes
  bes_inj : ∀ i < w.nCircs, ∀ j < w.nCircs, i ≠ j → ∀ p ∈ (w.circs i).bes, ∀ q ∈ (w.circs j).bes, p.2 ≠ q.2
  insts_lt : ∀ a ∈ w.insts, a < w.nBes
  insts_own : ∀ i < w.nCircs, ∀ p ∈ (w.circs i).bes, p.2 ∉ w.insts

theorem WF_start (b : B) (reg : Registry V M C) : (World.start b reg).WF := by
  constructor <;> simp [World.start]

/-- `w'` is a well-formed successor of `w` in which every circuit but `exc` looks the same. -/
structure Frame (w w' : World V M C B) (exc : Option ℕ) : Prop where
  wf : w'.WF
  le : w.nCircs ≤ w'.nCircs
  same : ∀ j < w.nCircs, exc ≠ some j → view w' j = view w j

theorem Frame.refl {w : World V M C B} (h : w.WF) (e : Option ℕ) : Frame w w e := ⟨h, le_rfl, fun _ _ _ => rfl⟩

theorem Frame.trans {w1 w2 w3 : World V M C B} {e : Option ℕ} (h1 : Frame w1 w2 e) (h2 : Frame w2 w3 e) :
    Frame w1 w3 e :=
  ⟨h2.wf, h1.le.trans h2.le, fun j hj he => (h2.same j (hj.trans_le h1.le) he).trans (h1.same j hj he)⟩

theorem Frame.weaken {w w' : World V M C B} {e : Option ℕ} (h : Frame w w' none) : Frame w w' e :=
  ⟨h.wf, h.le, fun j hj _ => h.same j hj (by simp)⟩

/-- Changing only the backend heap at addresses that do not belong to circuit `j`. -/
theorem view_congr {w w' : World V M C B} {j : ℕ} (hc : w'.circs j = w.circs j)
    (hl : w'.lists (w.circs j).ops = w.lists (w.circs j).ops)
    (hb : ∀ p ∈ (w.circs j).bes, w'.bes p.2 = w.bes p.2) : view w' j = view w j := by
  simp only [view, hc, hl, CircView.mk.injEq, true_and]
  exact List.map_congr_left (fun p hp => by rw [hb p hp])

theorem frame_alloc {w : World V M C B} (h : w.WF) (n : ℕ) (ops : List Gate) (bes : PyDict String ℕ)
    (dflt : Option String) (h1 : ∀ p ∈ bes, p.2 < w.nBes)
    (h2 : ∀ i < w.nCircs, ∀ p ∈ bes, ∀ q ∈ (w.circs i).bes, p.2 ≠ q.2)
    (h3 : ∀ p ∈ bes, p.2 ∉ w.insts) : Frame w (w.alloc n ops bes dflt) none := by
  have hc : ∀ i < w.nCircs, (w.alloc n ops bes dflt).circs i = w.circs i := fun i hi => by
    simp [World.alloc, Function.update_of_ne hi.ne]
  have hn : (w.alloc n ops bes dflt).circs w.nCircs = ⟨w.nLists, n, bes, dflt⟩ := by simp [World.alloc]
  have hcase : ∀ i, i < (w.alloc n ops bes dflt).nCircs → i < w.nCircs ∨ i = w.nCircs := fun i hi => by
    simp only [World.alloc] at hi; omega
  refine ⟨⟨?_, ?_, ?_, ?_, ?_, ?_⟩, by simp [World.alloc], ?_⟩
  · intro i hi
    have hN : (w.alloc n ops bes dflt).nLists = w.nLists + 1 := rfl
    rcases hcase i hi with hi | rfl
    · rw [hc i hi, hN]; have := h.ops_lt i hi; omega
    · rw [hn, hN]; simp
  · intro i hi j hj hij
    rcases hcase i hi with hi | rfl <;> rcases hcase j hj with hj | rfl
    · rw [hc i hi, hc j hj]; exact h.ops_inj i hi j hj hij
    · rw [hc i hi, hn]; exact (h.ops_lt i hi).ne
    · rw [hc j hj, hn]; exact (h.ops_lt j hj).ne'
    · exact absurd rfl hij
  · intro i hi p hp
    rcases hcase i hi with hi | rfl
    · rw [hc i hi] at hp; exact h.bes_lt i hi p hp
    · rw [hn] at hp; exact h1 p hp
  · intro i hi j hj hij p hp q hq
    rcases hcase i hi with hi | rfl <;> rcases hcase j hj with hj | rfl
    · rw [hc i hi] at hp; rw [hc j hj] at hq; exact h.bes_inj i hi j hj hij p hp q hq
    · rw [hc i hi] at hp; rw [hn] at hq; exact (h2 i hi q hq p hp).symm
    · rw [hc j hj] at hq; rw [hn] at hp; exact h2 j hj p hp q hq
    · exact absurd rfl hij
  · exact h.insts_lt
  · intro i hi p hp
    rcases hcase i hi with hi | rfl
    · rw [hc i hi] at hp; exact h.insts_own i hi p hp
    · rw [hn] at hp; exact h3 p hp
  · intro j hj _
    refine view_congr (hc j hj) ?_ (fun p _ => rfl)
    simp [World.alloc, Function.update_of_ne (h.ops_lt j hj).ne]

theorem view_alloc (w : World V M C B) (n : ℕ) (ops : List Gate) (bes : PyDict String ℕ) (dflt : Option String) :
    view (w.alloc n ops bes dflt) w.nCircs = ⟨ops, n, dflt, bes.map (fun p => (p.1, w.bes p.2))⟩ := by
  simp [view, World.alloc]

/-- What copying backend instances does. -/
theorem copyBes_spec (d : PyDict String ℕ) : ∀ w : World V M C B,
    (w.copyBes d).1 = { w with bes := (w.copyBes d).1.bes, nBes := w.nBes + d.length } ∧
    (∀ a < w.nBes, (w.copyBes d).1.bes a = w.bes a) ∧
    (∀ p ∈ (w.copyBes d).2, w.nBes ≤ p.2 ∧ p.2 < w.nBes + d.length) ∧
    ((∀ p ∈ d, p.2 < w.nBes) →
      (w.copyBes d).2.map (fun p => (p.1, (w.copyBes d).1.bes p.2)) = d.map (fun p => (p.1, w.bes p.2))) := by
  induction d with
  | nil => intro w; simp [World.copyBes]
  | cons p rest ih =>
    intro w
    obtain ⟨k, a⟩ := p
    have e := ih { w with bes := Function.update w.bes w.nBes (w.bes a), nBes := w.nBes + 1 }
    simp only [World.copyBes]
    set w1 : World V M C B := { w with bes := Function.update w.bes w.nBes (w.bes a), nBes := w.nBes + 1 } with hw1
    obtain ⟨e1, e2, e3, e4⟩ := e
    have hn : w1.nBes = w.nBes + 1 := rfl
    refine ⟨?_, ?_, ?_, ?_⟩
    · conv_lhs => rw [e1]
      simp [hw1]; omega
    · intro b hb
      rw [e2 b (by omega)]
      simp [hw1, Function.update_of_ne hb.ne]
    · intro p hp
      simp only [List.mem_cons] at hp
      rcases hp with rfl | hp
      · simp
      · have := e3 p hp; simp only [List.length_cons]; omega
    · intro hd
      simp only [List.map_cons, List.cons.injEq, Prod.mk.injEq, true_and]
      refine ⟨?_, ?_⟩
      · rw [e2 _ (by omega)]; simp [hw1]
      · rw [e4 (fun p hp => by have := hd p (by simp [hp]); omega)]
        refine List.map_congr_left (fun p hp => ?_)
        have := hd p (by simp [hp])
        simp [hw1, Function.update_of_ne this.ne]

theorem frame_copyBes {w : World V M C B} (h : w.WF) (d : PyDict String ℕ) :
    Frame w (w.copyBes d).1 none := by
  obtain ⟨e1, e2, -, -⟩ := copyBes_spec d w
  have hN : (w.copyBes d).1.nBes = w.nBes + d.length := by rw [e1]
  have hc : (w.copyBes d).1.circs = w.circs := by rw [e1]
  have hk : (w.copyBes d).1.nCircs = w.nCircs := by rw [e1]
  have hl : (w.copyBes d).1.lists = w.lists := by rw [e1]
  have hL : (w.copyBes d).1.nLists = w.nLists := by rw [e1]
  have hi : (w.copyBes d).1.insts = w.insts := by rw [e1]
  refine ⟨⟨?_, ?_, ?_, ?_, ?_, ?_⟩, by rw [hk], ?_⟩
  · rw [hk, hc, hL]; exact h.ops_lt
  · rw [hk, hc]; exact h.ops_inj
  · rw [hk, hc, hN]; intro i hi p hp; have := h.bes_lt i hi p hp; omega
  · rw [hk, hc]; exact h.bes_inj
  · rw [hi, hN]; intro a ha; have := h.insts_lt a ha; omega
  · rw [hk, hc, hi]; exact h.insts_own
  · intro j hj _
    exact view_congr (by rw [hc]) (by rw [hl]) (fun p hp => e2 _ (h.bes_lt j hj p hp))

/-- Allocating a circuit with copied backends. -/
theorem frame_allocCopy {w : World V M C B} (h : w.WF) (cb : Bool) (d : PyDict String ℕ) (n : ℕ) (ops : List Gate)
    (dflt : Option String) :
    Frame w ((if cb then w.copyBes d else (w, [])).1.alloc n ops (if cb then w.copyBes d else (w, [])).2 dflt) none := by
  cases cb with
  | false => exact frame_alloc h n ops [] dflt (by simp) (by simp) (by simp)
  | true =>
    simp only [if_true]
    have hf := frame_copyBes h d
    obtain ⟨e1, e2, e3, -⟩ := copyBes_spec d w
    have hN : (w.copyBes d).1.nBes = w.nBes + d.length := by rw [e1]
    have hc : (w.copyBes d).1.circs = w.circs := by rw [e1]
    have hk : (w.copyBes d).1.nCircs = w.nCircs := by rw [e1]
    have hi : (w.copyBes d).1.insts = w.insts := by rw [e1]
    refine hf.trans (frame_alloc hf.wf n ops _ dflt ?_ ?_ ?_)
    · intro p hp; rw [hN]; exact (e3 p hp).2
    · rw [hk, hc]; intro i hi p hp q hq
      have := (e3 p hp).1; have := h.bes_lt i hi q hq; omega
    · rw [hi]; intro p hp hin; have := (e3 p hp).1; have := h.insts_lt _ hin; omega

theorem copyBes_nCircs (w : World V M C B) (cb : Bool) (d : PyDict String ℕ) :
    (if cb then w.copyBes d else (w, [])).1.nCircs = w.nCircs := by
  cases cb with
  | false => rfl
  | true => obtain ⟨e1, -⟩ := copyBes_spec d w; simp only [if_true]; rw [e1]

/-- The new circuit made with copied backends. -/
theorem view_allocCopy {w : World V M C B} (h : w.WF) (i : ℕ) (hi : i < w.nCircs) (cb : Bool) (n : ℕ)
    (ops : List Gate) (dflt : Option String) :
    view ((if cb then w.copyBes (w.circs i).bes else (w, [])).1.alloc n ops
      (if cb then w.copyBes (w.circs i).bes else (w, [])).2 dflt) w.nCircs =
      ⟨ops, n, dflt, if cb then (view w i).bes else []⟩ := by
  conv_lhs => rw [← copyBes_nCircs w cb (w.circs i).bes]
  rw [view_alloc]
  cases cb with
  | false => rfl
  | true =>
    simp only [if_true]
    obtain ⟨-, -, -, e4⟩ := copyBes_spec (w.circs i).bes w
    rw [e4 (h.bes_lt i hi)]; rfl

/-- Overwriting the list of circuit `i`. -/
theorem frame_setList {w : World V M C B} (h : w.WF) (i : ℕ) (hi : i < w.nCircs) (l : List Gate) :
    Frame w { w with lists := Function.update w.lists (w.circs i).ops l } (some i) := by
  refine ⟨⟨h.ops_lt, h.ops_inj, h.bes_lt, h.bes_inj, h.insts_lt, h.insts_own⟩, le_rfl, ?_⟩
  intro j hj hne
  refine view_congr rfl ?_ (fun _ _ => rfl)
  simp only
  rw [Function.update_of_ne]
  exact h.ops_inj j hj i hi (fun e => hne (by rw [e]))

/-- Overwriting `n_qubits` or the default of circuit `i`. -/
theorem frame_setCirc {w : World V M C B} (h : w.WF) (i : ℕ) (hi : i < w.nCircs) (c : CircObj)
    (h1 : c.ops = (w.circs i).ops) (h2 : c.bes = (w.circs i).bes) :
    Frame w { w with circs := Function.update w.circs i c } (some i) := by
  have key : ∀ j, ((Function.update w.circs i c) j).ops = (w.circs j).ops ∧
      ((Function.update w.circs i c) j).bes = (w.circs j).bes := by
    intro j
    by_cases hj : j = i
    · subst hj; simp [h1, h2]
    · simp [Function.update_of_ne hj]
  refine ⟨⟨?_, ?_, ?_, ?_, h.insts_lt, ?_⟩, le_rfl, ?_⟩
  · intro j hj; simp only [(key j).1]; exact h.ops_lt j hj
  · intro j hj k hk hjk; simp only [(key j).1, (key k).1]; exact h.ops_inj j hj k hk hjk
  · intro j hj p hp; simp only [(key j).2] at hp; exact h.bes_lt j hj p hp
  · intro j hj k hk hjk p hp q hq
    simp only [(key j).2] at hp
    simp only [(key k).2] at hq
    exact h.bes_inj j hj k hk hjk p hp q hq
  · intro j hj p hp; simp only [(key j).2] at hp; exact h.insts_own j hj p hp
  · intro j hj hne
    have hji : j ≠ i := fun e => hne (by rw [e])
    exact view_congr (by simp [Function.update_of_ne hji]) rfl (fun _ _ => rfl)

/-- Overwriting the state of a backend instance no circuit but `i` owns. -/
theorem frame_setBe {w : World V M C B} (h : w.WF) (e : Option ℕ) (a : ℕ) (b : B)
    (ha : ∀ j < w.nCircs, e ≠ some j → ∀ p ∈ (w.circs j).bes, p.2 ≠ a) :
    Frame w { w with bes := Function.update w.bes a b } e := by
  refine ⟨⟨h.ops_lt, h.ops_inj, h.bes_lt, h.bes_inj, h.insts_lt, h.insts_own⟩, le_rfl, ?_⟩
  intro j hj hne
  exact view_congr rfl rfl (fun p hp => by simp [Function.update_of_ne (ha j hj hne p hp)])

theorem mem_set {d : PyDict String ℕ} {k : String} {v : ℕ} {p : String × ℕ} (h : p ∈ d.set k v) :
    p ∈ d ∨ p.2 = v := by
  induction d with
  | nil => simp [PyDict.set] at h; right; rw [h]
  | cons q rest ih =>
    obtain ⟨a, b⟩ := q
    simp only [PyDict.set] at h
    split_ifs at h with h1
    · simp only [List.mem_cons] at h
      rcases h with rfl | h
      · right; rfl
      · left; simp [h]
    · simp only [List.mem_cons] at h
      rcases h with rfl | h
      · left; simp
      · rcases ih h with h | h
        · left; simp [h]
        · right; exact h

theorem get_set_self (d : PyDict String ℕ) (k : String) (v : ℕ) : ∃ p ∈ d.set k v, p.2 = v := by
  have h := PyDict.get_set d k k v
  simp only [if_true] at h
  exact ⟨_, PyDict.get_mem h, rfl⟩

/-- Finding or creating the backend instance of circuit `i`. -/
theorem frame_getBackend {kit : Kit C B A R} {w w' : World V M C B} (h : w.WF) {i : ℕ} (hi : i < w.nCircs)
    {name : String} {a : ℕ} (hg : w.getBackend kit i name = .ok (w', a)) :
    Frame w w' (some i) ∧ w'.nCircs = w.nCircs ∧ (∃ p ∈ (w'.circs i).bes, p.2 = a) ∧
      w'.lists (w'.circs i).ops = w.lists (w.circs i).ops ∧ (w'.circs i).n = (w.circs i).n := by
  simp only [World.getBackend] at hg
  cases hd : (w.circs i).bes.get name with
  | some b =>
    simp only [hd, Except.ok.injEq, Prod.mk.injEq] at hg
    obtain ⟨rfl, rfl⟩ := hg
    exact ⟨Frame.refl h _, rfl, ⟨_, PyDict.get_mem hd, rfl⟩, rfl, rfl⟩
  | none =>
    simp only [hd] at hg
    cases hr : w.reg.backends.get name with
    | none => simp [hr] at hg
    | some c =>
      simp only [hr, Except.ok.injEq, Prod.mk.injEq] at hg
      obtain ⟨rfl, rfl⟩ := hg
      have hops : ∀ j, ((Function.update w.circs i { w.circs i with bes := (w.circs i).bes.set name w.nBes }) j).ops
          = (w.circs j).ops := by
        intro j
        by_cases hj : j = i
        · subst hj; simp
        · simp [Function.update_of_ne hj]
      have hmem : ∀ j p, p ∈ ((Function.update w.circs i
          { w.circs i with bes := (w.circs i).bes.set name w.nBes }) j).bes →
          p ∈ (w.circs j).bes ∨ (j = i ∧ p.2 = w.nBes) := by
        intro j p hp
        by_cases hj : j = i
        · subst hj
          simp only [Function.update_self] at hp
          rcases mem_set hp with hp | hp
          · exact .inl hp
          · exact .inr ⟨rfl, hp⟩
        · rw [Function.update_of_ne hj] at hp; exact .inl hp
      refine ⟨⟨⟨?_, ?_, ?_, ?_, ?_, ?_⟩, le_rfl, ?_⟩, rfl, ?_, ?_, ?_⟩
      · intro j hj; simp only [hops]; exact h.ops_lt j hj
      · intro j hj k hk hjk; simp only [hops]; exact h.ops_inj j hj k hk hjk
      · intro j hj p hp
        rcases hmem j p hp with hp | ⟨-, hp⟩
        · have := h.bes_lt j hj p hp; simp only; omega
        · simp only [hp]; omega
      · intro j hj k hk hjk p hp q hq
        rcases hmem j p hp with hp | ⟨hj', hp'⟩ <;> rcases hmem k q hq with hq | ⟨hk', hq'⟩
        · exact h.bes_inj j hj k hk hjk p hp q hq
        · rw [hq']; exact (h.bes_lt j hj p hp).ne
        · rw [hp']; exact (h.bes_lt k hk q hq).ne'
        · exact absurd (hj'.trans hk'.symm) hjk
      · intro b hb; have := h.insts_lt b hb; simp only; omega
      · intro j hj p hp
        rcases hmem j p hp with hp | ⟨-, hp⟩
        · exact h.insts_own j hj p hp
        · simp only [hp]; intro hin; exact absurd (h.insts_lt _ hin) (lt_irrefl _)
      · intro j hj hne
        have hji : j ≠ i := fun e => hne (by rw [e])
        refine view_congr (by simp [Function.update_of_ne hji]) rfl (fun p hp => ?_)
        simp [Function.update_of_ne (h.bes_lt j hj p hp).ne]
      · simp only [Function.update_self]; exact get_set_self _ _ _
      · simp
      · simp

theorem frame_runAt {kit : Kit C B A R} {w : World V M C B} (h : w.WF) {i : ℕ} (hi : i < w.nCircs) {a : ℕ}
    (ha : (∃ p ∈ (w.circs i).bes, p.2 = a) ∨ a ∈ w.insts) (x : A) :
    Frame w (w.runAt kit i a x).1 (some i) := by
  refine frame_setBe h (some i) a _ (fun j hj hne p hp => ?_)
  have hji : j ≠ i := fun e => hne (by rw [e])
  rcases ha with ⟨q, hq, rfl⟩ | ha
  · exact h.bes_inj j hj i hi hji p hp q hq
  · rintro rfl; exact h.insts_own j hj p hp ha

theorem frame_reg {w : World V M C B} (h : w.WF) (r : Except PyErr (Registry V M C)) :
    Frame w (w.regStep (R := R) r).1 none := by
  cases r with
  | error e => exact Frame.refl h _
  | ok reg => exact ⟨⟨h.ops_lt, h.ops_inj, h.bes_lt, h.bes_inj, h.insts_lt, h.insts_own⟩, le_rfl, fun j _ _ => rfl⟩

theorem frame_onCirc {w : World V M C B} (h : w.WF) (i : ℕ) (r : World V M C B × Except PyErr (Out R))
    (e : Option ℕ) (hr : i < w.nCircs → Frame w r.1 e) : Frame w (w.onCirc i r).1 e := by
  simp only [World.onCirc]
  split_ifs with hi
  · exact hr hi
  · exact Frame.refl h e

theorem frame_copyCirc {w : World V M C B} (h : w.WF) (i : ℕ) (cb cd : Bool) :
    Frame w (w.copyCirc i cb cd) none := frame_allocCopy h cb _ _ _ _

theorem copyCirc_nCircs (w : World V M C B) (i : ℕ) (cb cd : Bool) :
    (w.copyCirc i cb cd).nCircs = w.nCircs + 1 := by
  simp only [World.copyCirc, World.alloc, copyBes_nCircs]

theorem frame_extend {w : World V M C B} (h : w.WF) (i j : ℕ) (hi : i < w.nCircs) :
    Frame w (w.extend i j) (some i) := by
  have h1 := frame_setList h i hi (w.lists (w.circs i).ops ++ w.lists (w.circs j).ops)
  exact h1.trans (frame_setCirc h1.wf i hi { w.circs i with n := max (w.circs i).n (w.circs j).n } rfl rfl)

theorem frame_step (kit : Kit C B A R) (isAttr : String → Bool) {w : World V M C B} (h : w.WF)
    (c : Cmd V M C A) : Frame w (w.step kit isAttr c).1 (receiver c) := by
  cases c with
  | new n => exact frame_alloc h n [] [] none (by simp) (by simp) (by simp)
  | newFrom n ops => exact frame_alloc h n ops [] none (by simp) (by simp) (by simp)
  | append i g =>
    refine frame_onCirc h i _ _ (fun hi => ?_)
    have h1 := frame_setList h i hi (w.lists (w.circs i).ops ++ [g])
    cases getMaximumIndex g.targets with
    | error e => exact h1
    | ok mx => exact h1.trans (frame_setCirc h1.wf i hi { w.circs i with n := newQubits mx (w.circs i).n } rfl rfl)
  | appendCtorError i e => exact frame_onCirc h i _ _ (fun _ => Frame.refl h _)
  | copy i cb cd => exact frame_onCirc h i _ _ (fun _ => frame_copyCirc h i cb cd)
  | add i j =>
    refine frame_onCirc h i _ _ (fun hi => frame_onCirc h j _ _ (fun hj => ?_))
    have h1 := frame_copyCirc h i true true
    have h2 := frame_extend h1.wf w.nCircs j (by rw [copyCirc_nCircs]; omega)
    refine ⟨h2.wf, h1.le.trans h2.le, fun k hk _ => ?_⟩
    have hne : (some w.nCircs) ≠ some k := by simp; omega
    exact (h2.same k (by rw [copyCirc_nCircs]; omega) hne).trans (h1.same k hk (by simp))
  | iadd i j => exact frame_onCirc h i _ _ (fun hi => frame_onCirc h j _ _ (fun hj => frame_extend h i j hi))
  | dagger i ign cb cd =>
    refine frame_onCirc h i _ _ (fun hi => ?_)
    cases daggerOps ign (w.lists (w.circs i).ops).reverse with
    | error e => exact Frame.refl h _
    | ok ops => exact frame_allocCopy h cb _ _ _ _
  | run i sel a =>
    refine frame_onCirc h i _ _ (fun hi => ?_)
    cases sel with
    | none =>
      simp only
      cases hg : w.getBackend kit i (w.dfltName i) with
      | error e => exact Frame.refl h _
      | ok p =>
        obtain ⟨h1, h2, h3, -⟩ := frame_getBackend h hi hg
        exact h1.trans (frame_runAt h1.wf (by rw [h2]; exact hi) (.inl h3) a)
    | name s =>
      simp only
      cases hg : w.getBackend kit i s with
      | error e => exact Frame.refl h _
      | ok p =>
        obtain ⟨h1, h2, h3, -⟩ := frame_getBackend h hi hg
        exact h1.trans (frame_runAt h1.wf (by rw [h2]; exact hi) (.inl h3) a)
    | inst k =>
      simp only
      cases hk : w.insts[k]? with
      | none => exact Frame.refl h _
      | some b => exact frame_runAt h hi (.inr (List.mem_of_getElem? hk)) a
  | runWith i name a =>
    refine frame_onCirc h i _ _ (fun hi => ?_)
    split_ifs
    · cases hg : w.getBackend kit i name with
      | error e => exact Frame.refl h _
      | ok p =>
        obtain ⟨h1, h2, h3, -⟩ := frame_getBackend h hi hg
        exact h1.trans (frame_runAt h1.wf (by rw [h2]; exact hi) (.inl h3) a)
    · exact Frame.refl h _
  | makeCache i name a =>
    refine frame_onCirc h i _ _ (fun hi => ?_)
    cases hg : w.getBackend kit i (name.getD (w.dfltName i)) with
    | error e => exact Frame.refl h _
    | ok p =>
      obtain ⟨h1, h2, h3, -⟩ := frame_getBackend h hi hg
      refine h1.trans (frame_setBe h1.wf (some i) p.2 _ (fun j hj hne q hq => ?_))
      obtain ⟨q', hq', he⟩ := h3
      rw [← he]
      exact h1.wf.bes_inj j hj i (by rw [h2]; exact hi) (fun e => hne (by rw [e])) q hq q' hq'
  | setDefault i name =>
    refine frame_onCirc h i _ _ (fun hi => ?_)
    cases name with
    | none => exact Frame.refl h _
    | some s =>
      simp only
      split_ifs
      · exact frame_setCirc h i hi { w.circs i with dflt := some s } rfl rfl
      · exact Frame.refl h _
  | newBackend c =>
    refine ⟨⟨h.ops_lt, h.ops_inj, ?_, h.bes_inj, ?_, ?_⟩, le_rfl, ?_⟩
    · intro i hi p hp; have := h.bes_lt i hi p hp; simp only [World.step]; omega
    · intro a ha
      simp only [World.step, List.mem_append, List.mem_singleton] at ha ⊢
      rcases ha with ha | rfl
      · have := h.insts_lt a ha; omega
      · omega
    · intro i hi p hp hin
      simp only [World.step, List.mem_append, List.mem_singleton] at hin
      rcases hin with hin | hin
      · exact h.insts_own i hi p hp hin
      · have := h.bes_lt i hi p hp; omega
    · intro j hj _
      exact view_congr rfl rfl (fun p hp => by
        simp [World.step, Function.update_of_ne (h.bes_lt j hj p hp).ne])
  | registerMacro => exact frame_reg h _
  | unregisterMacro => exact frame_reg h _
  | registerGate => exact frame_reg h _
  | unregisterGate => exact frame_reg h _
  | registerBackend => exact frame_reg h _
  | unregisterBackend => exact frame_reg h _
  | setGlobalDefault => exact frame_reg h _

theorem WF_exec (kit : Kit C B A R) (isAttr : String → Bool) {w : World V M C B} (h : w.WF)
    (l : List (Cmd V M C A)) : (w.exec kit isAttr l).WF := by
  induction l generalizing w with
  | nil => exact h
  | cons c l ih => exact ih (frame_step kit isAttr h c).wf

end

end Blueqat
