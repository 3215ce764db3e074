import Verif.Numba
import Verif.NumbaLoops
import Verif.NpPlain
import Verif.NpCache

/-! Lemmas: the numba cache never changes what an uninterrupted run returns. -/

set_option linter.unusedSimpArgs false
set_option linter.unusedVariables false

namespace Blueqat

noncomputable section

/-! ## Whether a gate raises does not depend on the state -/

/-- On states satisfying `W` the step always raises the same exception, or never raises and keeps `W`. -/
def Uni {σ : Type} (W : σ → Prop) (f : σ → Except PyErr σ) : Prop :=
  (∃ e, ∀ s, W s → f s = .error e) ∨ (∀ s, W s → ∃ s', f s = .ok s' ∧ W s')

theorem Uni.error {σ : Type} (W : σ → Prop) (e : PyErr) : Uni W (fun _ => .error e) := .inl ⟨e, fun _ _ => rfl⟩

theorem Uni.pure {σ : Type} (W : σ → Prop) : Uni W (fun s => .ok s) := .inr fun s h => ⟨s, rfl, h⟩

theorem Uni.bind {σ : Type} {W : σ → Prop} {f g : σ → Except PyErr σ} (hf : Uni W f) (hg : Uni W g) :
    Uni W (fun s => f s >>= g) := by
  rcases hf with ⟨e, he⟩ | hf
  · exact .inl ⟨e, fun s hs => by beta_reduce; rw [he s hs]; rfl⟩
  · rcases hg with ⟨e, he⟩ | hg
    · refine .inl ⟨e, fun s hs => ?_⟩
      obtain ⟨s', h1, h2⟩ := hf s hs
      beta_reduce; rw [h1]; exact he s' h2
    · refine .inr fun s hs => ?_
      obtain ⟨s', h1, h2⟩ := hf s hs
      obtain ⟨s'', h3, h4⟩ := hg s' h2
      exact ⟨s'', by beta_reduce; rw [h1]; exact h3, h4⟩

theorem Uni.foldlM {α σ : Type} {W : σ → Prop} (body : α → σ → Except PyErr σ) (L : List α)
    (h : ∀ a ∈ L, Uni W (body a)) : Uni W (fun s => L.foldlM (fun s a => body a s) s) := by
  induction L with
  | nil => exact Uni.pure W
  | cons a L ih =>
    have := (h a (by simp)).bind (ih fun b hb => h b (by simp [hb]))
    simpa only [List.foldlM_cons] using this

theorem Uni.forGen {σ : Type} {W : σ → Prop} (g : Gen ℤ) (body : ℤ → σ → Except PyErr σ)
    (h : ∀ a, Uni W (body a)) : Uni W (fun s => forGen g body s) := by
  have h1 := Uni.foldlM body g.vals (fun a _ => h a)
  have h2 : Uni W (fun s => match g.err with | none => .ok s | some e => .error e) := by
    cases g.err with
    | none => exact Uni.pure W
    | some e => exact Uni.error W e
  have := h1.bind h2
  have e : (fun s => Blueqat.forGen g body s) = fun s => (g.vals.foldlM (fun s a => body a s) s >>=
      fun s => match g.err with | none => Except.ok s | some e => Except.error e) := by
    funext s
    simp only [Blueqat.forGen]
    cases g.vals.foldlM (fun s a => body a s) s <;> rfl
  rw [e]; exact this

theorem Uni.forPairs {σ : Type} {W : σ → Prop} (g : Except PyErr (List (ℤ × ℤ)))
    (body : ℤ → ℤ → σ → Except PyErr σ) (h : ∀ a b, Uni W (body a b)) : Uni W (fun s => forPairs g body s) := by
  cases g with
  | error e => exact Uni.error W e
  | ok L => exact Uni.foldlM (fun p : ℤ × ℤ => body p.1 p.2) L (fun a _ => h a.1 a.2)

theorem runIters_length (ps : List (List Ins)) (q : Arr) : (runIters ps q).length = q.length := by
  induction ps generalizing q with
  | nil => rfl
  | cons p ps ih =>
    rw [show runIters (p :: ps) q = runIters ps (runIter p q) from rfl, ih]
    exact foldl_length p _

/-- Arrays of the right length. -/
abbrev LenN (n : ℕ) (q : Arr) : Prop := q.length = 2 ^ n

theorem uni_kernel1 (body : ℕ → ℕ → List Ins) (n : ℕ) (t : ℤ) : Uni (LenN n) (nbKernel1 body n t) := by
  by_cases h : 0 ≤ t ∧ t < n
  · right; intro q hq
    exact ⟨_, by rw [nbKernel1, if_pos h], by rw [LenN, runIters_length]; exact hq⟩
  · left; exact ⟨_, fun q _ => by rw [nbKernel1, if_neg h]⟩

theorem uni_kernelC (body : ℕ → ℕ → List Ins) (n : ℕ) (ct : List ℤ) : Uni (LenN n) (nbKernelC body n ct) := by
  by_cases h : (∀ x ∈ ct, 0 ≤ x ∧ x < n) ∧ ct.Nodup
  · cases hl : ct.getLast? with
    | none => left; exact ⟨.undefinedBehaviour, fun q _ => by rw [nbKernelC, if_pos h, hl]⟩
    | some t =>
      right; intro q hq
      exact ⟨_, by rw [nbKernelC, if_pos h, hl], by rw [LenN, runIters_length]; exact hq⟩
  · left; exact ⟨.undefinedBehaviour, fun q _ => by rw [nbKernelC, if_neg h]⟩

theorem uni_nbArr {n : ℕ} {g : Gate} {f : Arr → Except PyErr Arr} (h : nbArr n g = some f) : Uni (LenN n) f := by
  cases g with
  | measure T => simp [nbArr] at h
  | reset T => simp [nbArr] at h
  | g1 k T =>
    simp only [nbArr, Option.map_eq_some_iff] at h
    obtain ⟨b, hb, rfl⟩ := h
    exact Uni.forGen _ _ (uni_kernel1 b n)
  | g2 k T =>
    simp only [nbArr, Option.map_eq_some_iff] at h
    obtain ⟨b, hb, rfl⟩ := h
    exact Uni.forPairs _ _ (fun c t => uni_kernelC b n [c, t])
  | g3 k T =>
    simp only [nbArr, Option.map_eq_some_iff] at h
    obtain ⟨b, hb, rfl⟩ := h
    cases nbIntArray T with
    | error e => exact Uni.error _ e
    | ok ct => exact uni_kernelC b n ct

/-- Contexts for `n` qubits. -/
structure NbCtx.Wf (n : ℕ) (c : NbCtx) : Prop where
  q : c.qubits.length = 2 ^ n
  cr : c.cregs.length = n

theorem setCreg_len {l : List ℕ} {n : ℕ} (hl : l.length = n) {t : ℤ} (h : 0 ≤ t ∧ t < n) (v : ℕ) :
    ∃ l', setCreg l t v = .ok l' ∧ l'.length = n := by
  simp only [setCreg]
  rw [if_neg (show ¬ t < 0 by omega), if_pos (show 0 ≤ t ∧ t < (l.length : ℤ) by rw [hl]; exact h)]
  exact ⟨_, rfl, by simpa using hl⟩

theorem uni_measure (n : ℕ) (t : ℤ) : Uni (NbCtx.Wf n) (nbMeasureBody n t) := by
  by_cases h : 0 ≤ t ∧ t < n
  · right; intro c hc
    simp only [nbMeasureBody, if_pos h]
    split_ifs
    · obtain ⟨l, h1, h2⟩ := setCreg_len hc.cr h 0
      rw [h1]
      exact ⟨_, rfl, by rw [runIters_length]; exact hc.q, h2⟩
    · obtain ⟨l, h1, h2⟩ := setCreg_len hc.cr h 1
      rw [h1]
      exact ⟨_, rfl, by rw [runIters_length]; exact hc.q, h2⟩
  · left; exact ⟨_, fun q _ => by rw [nbMeasureBody, if_neg h]⟩

theorem uni_reset (n : ℕ) (t : ℤ) : Uni (NbCtx.Wf n) (nbResetBody n t) := by
  by_cases h : 0 ≤ t ∧ t < n
  · right; intro c hc
    simp only [nbResetBody, if_pos h]
    split_ifs
    · exact ⟨_, rfl, by rw [runIters_length]; exact hc.q, hc.cr⟩
    · exact ⟨_, rfl, by rw [runIters_length]; exact hc.q, hc.cr⟩
  · left; exact ⟨_, fun q _ => by rw [nbResetBody, if_neg h]⟩

theorem nbAction_eq {n : ℕ} {g : Gate} (hm : g.isMeas = false) : nbAction n g =
    (nbArr n g).map fun f (ctx : NbCtx) => (f ctx.qubits).map fun q => { ctx with qubits := q } := by
  cases g <;> first | rfl | simp [Gate.isMeas] at hm

theorem uni_action {n : ℕ} {g : Gate} {a : NbCtx → Except PyErr NbCtx} (h : nbAction n g = some a) :
    Uni (NbCtx.Wf n) a := by
  by_cases hm : g.isMeas = true
  · cases g with
    | measure T =>
      simp only [nbAction, Option.some.injEq] at h; subst h
      exact Uni.forGen _ _ (uni_measure n)
    | reset T =>
      simp only [nbAction, Option.some.injEq] at h; subst h
      exact Uni.forGen _ _ (uni_reset n)
    | g1 => simp [Gate.isMeas] at hm
    | g2 => simp [Gate.isMeas] at hm
    | g3 => simp [Gate.isMeas] at hm
  · have hm : g.isMeas = false := by simpa using hm
    rw [nbAction_eq hm, Option.map_eq_some_iff] at h
    obtain ⟨f, hf, rfl⟩ := h
    rcases uni_nbArr hf with ⟨e, he⟩ | hok
    · exact .inl ⟨e, fun s hs => by beta_reduce; rw [he _ hs.q]; rfl⟩
    · refine .inr fun s hs => ?_
      obtain ⟨q, h1, h2⟩ := hok s.qubits hs.q
      exact ⟨{ s with qubits := q }, by beta_reduce; rw [h1]; rfl, h2, hs.cr⟩

theorem uni_runGate (n fuel : ℕ) : ∀ g : Gate, Uni (NbCtx.Wf n) (runGate (nbAction n) n fuel g) := by
  induction fuel with
  | zero => intro g; exact Uni.error _ _
  | succ fuel ih =>
    intro g
    rcases Option.eq_none_or_eq_some (nbAction n g) with ha | ⟨a, ha⟩
    · cases hf : g.fallback n with
      | error e =>
        have : runGate (nbAction n) n (fuel + 1) g = fun c => .error e := by
          funext c; simp only [runGate, ha, hf]
        rw [this]; exact Uni.error _ e
      | ok gs =>
        have : runGate (nbAction n) n (fuel + 1) g =
            fun c => gs.foldlM (fun s g' => runGate (nbAction n) n fuel g' s) c := by
          funext c; simp only [runGate, ha, hf]
        rw [this]
        exact Uni.foldlM (fun g' s => runGate (nbAction n) n fuel g' s) gs (fun g' _ => ih g')
    · have : runGate (nbAction n) n (fuel + 1) g = a := by funext c; simp only [runGate, ha]
      rw [this]; exact uni_action ha

/-- The gate never raises on `n` qubits. -/
def GateOk (n : ℕ) (g : Gate) : Prop := ∀ c : NbCtx, c.Wf n → ∃ c', nbRunGate n g c = .ok c' ∧ c'.Wf n

/-- The gate always raises `e` on `n` qubits. -/
def GateBad (n : ℕ) (g : Gate) (e : PyErr) : Prop := ∀ c : NbCtx, c.Wf n → nbRunGate n g c = .error e

theorem gate_dichotomy (n : ℕ) (g : Gate) : (∃ e, GateBad n g e) ∨ GateOk n g := uni_runGate n recursionLimit g

/-! ## Unitary gates touch the amplitudes only -/

/-- The step is a function of the amplitudes. -/
def OnQubits (f : NbCtx → Except PyErr NbCtx) : Prop :=
  ∃ U : Arr → Except PyErr Arr, ∀ c, f c = (U c.qubits).map fun q => { c with qubits := q }

theorem OnQubits.bind {f g : NbCtx → Except PyErr NbCtx} (hf : OnQubits f) (hg : OnQubits g) :
    OnQubits (fun c => f c >>= g) := by
  obtain ⟨U, hU⟩ := hf
  obtain ⟨V, hV⟩ := hg
  refine ⟨fun q => U q >>= V, fun c => ?_⟩
  simp only [hU]
  cases hu : U c.qubits with
  | error e => simp only [err_map, err_bind]
  | ok q => simp only [ok_map, ok_bind, hV]

theorem onQubits_runGate (n fuel : ℕ) : ∀ g : Gate, g.isMeas = false → OnQubits (runGate (nbAction n) n fuel g) := by
  induction fuel with
  | zero => intro g _; exact ⟨fun _ => .error .recursionError, fun c => rfl⟩
  | succ fuel ih =>
    intro g hm
    rcases Option.eq_none_or_eq_some (nbAction n g) with ha | ⟨a, ha⟩
    · cases hf : g.fallback n with
      | error e =>
        exact ⟨fun _ => .error e, fun c => by simp only [runGate, ha, hf, err_map]⟩
      | ok gs =>
        have : runGate (nbAction n) n (fuel + 1) g =
            fun c => gs.foldlM (fun s g' => runGate (nbAction n) n fuel g' s) c := by
          funext c; simp only [runGate, ha, hf]
        rw [this]
        have hm' := fallback_not_meas hf
        clear this hf
        induction gs with
        | nil => exact ⟨fun q => .ok q, fun c => rfl⟩
        | cons g' gs ih' =>
          exact (ih g' (hm' g' (by simp))).bind (ih' (fun g hg => hm' g (by simp [hg])))
    · have : runGate (nbAction n) n (fuel + 1) g = a := by funext c; simp only [runGate, ha]
      rw [this]
      rw [nbAction_eq hm, Option.map_eq_some_iff] at ha
      obtain ⟨f, hf, rfl⟩ := ha
      exact ⟨f, fun c => rfl⟩

theorem stopsCache_eq (g : Gate) : g.stopsCache = g.isMeas := by cases g <;> rfl

/-! ## Runs without a cache -/

/-- The gates one after the other. -/
def nbPlain (n : ℕ) : List Gate → NbCtx → Except PyErr NbCtx
  | [], c => .ok c
  | g :: gs, c =>
    match nbRunGate n g c with
    | .error e => .error e
    | .ok c => nbPlain n gs c

theorem nbPlain_append (n : ℕ) (a b : List Gate) (c : NbCtx) :
    nbPlain n (a ++ b) c = match nbPlain n a c with
      | .error e => .error e
      | .ok c => nbPlain n b c := by
  induction a generalizing c with
  | nil => rfl
  | cons g a ih =>
    simp only [List.cons_append, nbPlain]
    cases nbRunGate n g c with
    | error e => rfl
    | ok p => exact ih p

theorem nbPlain_ok {n : ℕ} {gs : List Gate} (h : ∀ g ∈ gs, GateOk n g) {c : NbCtx} (hc : c.Wf n) :
    ∃ c', nbPlain n gs c = .ok c' ∧ c'.Wf n := by
  induction gs generalizing c with
  | nil => exact ⟨c, rfl, hc⟩
  | cons g gs ih =>
    obtain ⟨c1, h1, h2⟩ := h g (by simp) c hc
    obtain ⟨c2, h3, h4⟩ := ih (fun g hg => h g (by simp [hg])) h2
    exact ⟨c2, by simp only [nbPlain, h1]; exact h3, h4⟩

theorem nbPlain_bad {n : ℕ} {gs gs' : List Gate} {g : Gate} {e : PyErr} (h : ∀ g ∈ gs, GateOk n g)
    (hb : GateBad n g e) {c : NbCtx} (hc : c.Wf n) : nbPlain n (gs ++ g :: gs') c = .error e := by
  obtain ⟨c', h1, h2⟩ := nbPlain_ok h hc
  rw [nbPlain_append, h1]
  simp only [nbPlain, hb c' h2]

/-- All shots without a cache. -/
def nbPlainShots (n : ℕ) (gates : List Gate) : ℕ → NbCtx → Counter → Except PyErr (NbCtx × Counter)
  | 0, c, res => .ok (c, res)
  | k + 1, c, res =>
    match nbPlain n gates ⟨q0 n, List.replicate n 0, c.rnd⟩ with
    | .error e => .error e
    | .ok c => nbPlainShots n gates k c (if c.cregs = [] then res else res.add (cregsKey c.cregs))

/-! ## The cache -/

/-- The prefix of length `k` has been run from the all-zero state and gave `q`. -/
def Reached (n : ℕ) (done : List Gate) (q : Arr) : Prop :=
  ∀ (cr : List ℕ) r, cr.length = n → nbPlain n done ⟨q0 n, cr, r⟩ = .ok ⟨q, cr, r⟩

/-- What the fields `cache` and `cache_idx` can be: empty, right, or left behind by a run that raised at a gate that
raises always. -/
inductive NbCacheOK (n : ℕ) (gates : List Gate) (be : NbBackend) : Prop
  | empty (h1 : be.cache = none) (h2 : be.cacheIdx = -1)
  | right (k : ℕ) (q : Arr) (h1 : be.cache = some q) (h2 : be.cacheIdx + 1 = k) (h3 : k ≤ gates.length)
      (h4 : q.length = 2 ^ n) (h5 : Reached n (gates.take k) q) (h6 : ∀ g ∈ gates.take k, GateOk n g)
  | stuck (k : ℕ) (q : Arr) (pre : List Gate) (g : Gate) (post : List Gate) (e : PyErr) (h1 : be.cache = some q)
      (h2 : be.cacheIdx + 1 = k) (h3 : gates = pre ++ g :: post) (h4 : k ≤ pre.length) (h5 : q.length = 2 ^ n)
      (h6 : ∀ g ∈ pre, GateOk n g) (h7 : GateBad n g e)

theorem nbCacheOK_append {n : ℕ} {gates : List Gate} {be : NbBackend} (l : List Gate) (h : NbCacheOK n gates be) :
    NbCacheOK n (gates ++ l) be := by
  cases h with
  | empty h1 h2 => exact .empty h1 h2
  | right k q h1 h2 h3 h4 h5 h6 =>
    refine .right k q h1 h2 (by simp; omega) h4 ?_ ?_
    · rw [List.take_append_of_le_length h3]; exact h5
    · rw [List.take_append_of_le_length h3]; exact h6
  | stuck k q pre g post e h1 h2 h3 h4 h5 h6 h7 =>
    exact .stuck k q pre g (post ++ l) e h1 h2 (by simp [h3]) h4 h5 h6 h7

/-- State of the loop over gates after `done`, in a shot that began with the backend `be`. -/
structure LoopOK (n : ℕ) (gates done : List Gate) (be : NbBackend) (s : NbLoop) : Prop where
  wf : s.ctx.Wf n
  fuse : s.fuse = none
  ok : ∀ g ∈ done, GateOk n g
  start : be.cacheIdx + 1 ≤ done.length
  save : s.save = true → s.idx + 1 = done.length ∧ Reached n done s.ctx.qubits ∧ s.cache = be.cache
  stop : s.save = false → NbCacheOK n gates ⟨s.cache, s.idx⟩ ∧ (s.cache = none → be.cacheIdx = -1) ∧
    (∀ q, s.cache = some q → q.length = 2 ^ n)

theorem NbCacheOK.basic {n : ℕ} {gates : List Gate} {be : NbBackend} (h : NbCacheOK n gates be) :
    (∃ k : ℕ, be.cacheIdx + 1 = k) ∧ (be.cache = none → be.cacheIdx = -1) ∧
      (∀ q, be.cache = some q → q.length = 2 ^ n) := by
  cases h with
  | empty h1 h2 => exact ⟨⟨0, by rw [h2]; rfl⟩, fun _ => h2, fun q hq => by rw [h1] at hq; cases hq⟩
  | right k q h1 h2 h3 h4 h5 h6 =>
    exact ⟨⟨k, h2⟩, fun h => (by rw [h1] at h; cases h), fun q' hq => (by rw [h1] at hq; cases hq; exact h4)⟩
  | stuck k q pre g post e h1 h2 h3 h4 h5 h6 h7 =>
    exact ⟨⟨k, h2⟩, fun h => (by rw [h1] at h; cases h), fun q' hq => (by rw [h1] at hq; cases hq; exact h5)⟩

theorem nbGates_spec (n : ℕ) (gates : List Gate) (be : NbBackend) (hbe : NbCacheOK n gates be) (rest : List Gate) :
    ∀ (done : List Gate) (s : NbLoop), gates = done ++ rest → LoopOK n gates done be s →
      match nbPlain n rest s.ctx with
      | .error e => (nbGates n rest s).2 = .error e ∧ NbCacheOK n gates ⟨(nbGates n rest s).1.cache, be.cacheIdx⟩
      | .ok c => (nbGates n rest s).2 = .ok () ∧ (nbGates n rest s).1.ctx = c ∧
          LoopOK n gates gates be (nbGates n rest s).1 := by
  obtain ⟨⟨k, hk⟩, hnone, hsome⟩ := hbe.basic
  induction rest with
  | nil =>
    intro done s hg hs
    rw [List.append_nil] at hg
    subst hg
    exact ⟨rfl, rfl, hs⟩
  | cons g rest ih =>
    intro done s hg hs
    have hf : s.fuse ≠ some 0 := by rw [hs.fuse]; simp
    simp only [nbGates, hf, if_false, nbPlain]
    -- the cache just before the gate
    have hcache : ∀ q, (if g.stopsCache then (if s.save then some s.ctx.qubits else s.cache) else s.cache) = some q →
        q.length = 2 ^ n := by
      intro q hq
      cases hsv : s.save with
      | true =>
        rw [hsv] at hq
        cases hst : g.stopsCache <;> simp only [hst, if_true, if_false, Bool.false_eq_true] at hq
        · exact hsome q (by rw [← (hs.save hsv).2.2]; exact hq)
        · cases hq; exact hs.wf.q
      | false =>
        have : s.cache = some q := by rw [hsv] at hq; simpa using hq
        exact (hs.stop hsv).2.2 q this
    have hcn : (if g.stopsCache then (if s.save then some s.ctx.qubits else s.cache) else s.cache) = none →
        be.cacheIdx = -1 := by
      intro hq
      cases hsv : s.save with
      | true =>
        rw [hsv] at hq
        cases hst : g.stopsCache <;> simp only [hst, if_true, if_false, Bool.false_eq_true, reduceCtorEq] at hq
        exact hnone (by rw [← (hs.save hsv).2.2]; exact hq)
      | false =>
        have : s.cache = none := by rw [hsv] at hq; simpa using hq
        exact (hs.stop hsv).2.1 this
    have hctx : (if g.stopsCache then ({ s with fuse := s.fuse.map (· - 1), cache := if s.save then some s.ctx.qubits else s.cache, save := false } : NbLoop) else { s with fuse := s.fuse.map (· - 1) }).ctx = s.ctx := by
      cases g.stopsCache <;> rfl
    rcases gate_dichotomy n g with ⟨e, hbad⟩ | hok
    · have he := hbad s.ctx hs.wf
      simp only [hctx, he]
      refine ⟨trivial, ?_⟩
      have e1 : (if g.stopsCache then ({ s with fuse := s.fuse.map (· - 1), cache := if s.save then some s.ctx.qubits else s.cache, save := false } : NbLoop) else { s with fuse := s.fuse.map (· - 1) }).cache =
        (if g.stopsCache then (if s.save then some s.ctx.qubits else s.cache) else s.cache) := by
        cases g.stopsCache <;> rfl
      rw [e1]
      cases hcc : (if g.stopsCache then (if s.save then some s.ctx.qubits else s.cache) else s.cache) with
      | none => exact .empty rfl (hcn hcc)
      | some q => exact .stuck k q done g rest e rfl hk hg (by have := hs.start; omega) (hcache q hcc) hs.ok hbad
    · obtain ⟨c', hc1, hc2⟩ := hok s.ctx hs.wf
      simp only [hctx, hc1]
      have hg' : gates = (done ++ [g]) ++ rest := by rw [hg]; simp
      suffices hL : LoopOK n gates (done ++ [g]) be
          { (if g.stopsCache then ({ s with fuse := s.fuse.map (· - 1), cache := if s.save then some s.ctx.qubits else s.cache, save := false } : NbLoop) else { s with fuse := s.fuse.map (· - 1) }) with
            ctx := c', idx := if (if g.stopsCache then ({ s with fuse := s.fuse.map (· - 1), cache := if s.save then some s.ctx.qubits else s.cache, save := false } : NbLoop) else { s with fuse := s.fuse.map (· - 1) }).save then (if g.stopsCache then ({ s with fuse := s.fuse.map (· - 1), cache := if s.save then some s.ctx.qubits else s.cache, save := false } : NbLoop) else { s with fuse := s.fuse.map (· - 1) }).idx + 1 else (if g.stopsCache then ({ s with fuse := s.fuse.map (· - 1), cache := if s.save then some s.ctx.qubits else s.cache, save := false } : NbLoop) else { s with fuse := s.fuse.map (· - 1) }).idx } from
        ih (done ++ [g]) _ hg' hL
      cases hst : g.stopsCache with
      | true =>
        simp only [if_true, Bool.false_eq_true, if_false]
        rw [hst] at hcache hcn
        simp only [if_true] at hcache hcn
        refine ⟨hc2, by simp [hs.fuse], ?_, ?_, by simp, ?_⟩
        · intro g' hg'
          rcases List.mem_append.1 hg' with h | h
          · exact hs.ok g' h
          · simp at h; subst h; exact hok
        · have := hs.start; simp; omega
        · intro _
          refine ⟨?_, hcn, hcache⟩
          cases hsv : s.save with
          | true =>
            obtain ⟨h1, h2, h3⟩ := hs.save hsv
            refine .right done.length s.ctx.qubits (by simp) h1 (by rw [hg]; simp) hs.wf.q ?_ ?_
            · rw [hg, List.take_left]; exact h2
            · rw [hg, List.take_left]; exact hs.ok
          | false => simp only [Bool.false_eq_true, if_false]; exact (hs.stop hsv).1
      | false =>
        simp only [Bool.false_eq_true, if_false]
        refine ⟨hc2, by simp [hs.fuse], ?_, ?_, ?_, ?_⟩
        · intro g' hg'
          rcases List.mem_append.1 hg' with h | h
          · exact hs.ok g' h
          · simp at h; subst h; exact hok
        · have := hs.start; simp; omega
        · intro hsv
          have hsv : s.save = true := hsv
          obtain ⟨h1, h2, h3⟩ := hs.save hsv
          simp only [hsv, if_true]
          refine ⟨by simp; omega, ?_, h3⟩
          rw [stopsCache_eq] at hst
          obtain ⟨U, hU⟩ := onQubits_runGate n recursionLimit g hst
          intro cr r hcr
          rw [nbPlain_append, h2 cr r hcr]
          have h4 : nbRunGate n g s.ctx = (U s.ctx.qubits).map fun q => { s.ctx with qubits := q } := hU s.ctx
          have h5 : nbRunGate n g ⟨s.ctx.qubits, cr, r⟩ = (U s.ctx.qubits).map fun q => ⟨q, cr, r⟩ := hU _
          rw [hc1] at h4
          cases hu : U s.ctx.qubits with
          | error e => rw [hu] at h4; cases h4
          | ok q =>
            rw [hu] at h4 h5
            simp only [ok_map, Except.ok.injEq] at h4
            simp only [nbPlain, h5, ok_map, h4]
        · intro hsv
          have hsv : s.save = false := hsv
          rw [hsv]
          simp only [Bool.false_eq_true, if_false]
          exact hs.stop hsv

/-- From a cache left behind by a run that raised, the next run raises the same exception. -/
theorem nbGates_stuck (n : ℕ) {g : Gate} {e : PyErr} (hbad : GateBad n g e) (post pre : List Gate)
    (hpre : ∀ g ∈ pre, GateOk n g) : ∀ (s : NbLoop), s.ctx.Wf n → s.fuse = none →
      (∃ q, s.cache = some q ∧ q.length = 2 ^ n) →
      (nbGates n (pre ++ g :: post) s).2 = .error e ∧
        ∃ q, (nbGates n (pre ++ g :: post) s).1.cache = some q ∧ q.length = 2 ^ n := by
  have hstep : ∀ (g : Gate) (s : NbLoop), s.ctx.Wf n → (∃ q, s.cache = some q ∧ q.length = 2 ^ n) →
      (if g.stopsCache then ({ s with fuse := s.fuse.map (· - 1), cache := if s.save then some s.ctx.qubits else s.cache, save := false } : NbLoop) else { s with fuse := s.fuse.map (· - 1) }).ctx = s.ctx ∧
      ∃ q, (if g.stopsCache then ({ s with fuse := s.fuse.map (· - 1), cache := if s.save then some s.ctx.qubits else s.cache, save := false } : NbLoop) else { s with fuse := s.fuse.map (· - 1) }).cache = some q ∧ q.length = 2 ^ n := by
    rintro g s hw ⟨q, hq1, hq2⟩
    cases g.stopsCache with
    | false => exact ⟨rfl, q, hq1, hq2⟩
    | true =>
      refine ⟨rfl, ?_⟩
      cases hsv : s.save with
      | true => exact ⟨s.ctx.qubits, by simp, hw.q⟩
      | false => exact ⟨q, by simpa using hq1, hq2⟩
  induction pre with
  | nil =>
    intro s hw hf hc
    have hf' : s.fuse ≠ some 0 := by rw [hf]; simp
    obtain ⟨h1, h2⟩ := hstep g s hw hc
    simp only [List.nil_append, nbGates, hf', if_false, h1, hbad s.ctx hw]
    exact ⟨trivial, h2⟩
  | cons g' pre ih =>
    intro s hw hf hc
    have hf' : s.fuse ≠ some 0 := by rw [hf]; simp
    obtain ⟨h1, h2⟩ := hstep g' s hw hc
    obtain ⟨c', hc1, hc2⟩ := hpre g' (by simp) s.ctx hw
    simp only [List.cons_append, nbGates, hf', if_false, h1, hc1]
    refine ih (fun g hg => hpre g (by simp [hg])) _ hc2 ?_ h2
    cases g'.stopsCache <;> simp [hf]

theorem nbPrepare_some {n : ℕ} {q : Arr} (hq : q.length = 2 ^ n) {ctx : NbCtx} (hc : ctx.qubits.length = 2 ^ n) :
    nbPrepare n (some q) ctx = .ok ⟨q, List.replicate n 0, ctx.rnd⟩ := by
  simp [nbPrepare, hq, hc]

theorem nbPrepare_none {n : ℕ} {ctx : NbCtx} (hc : ctx.qubits.length = 2 ^ n) :
    nbPrepare n none ctx = .ok ⟨q0 n, List.replicate n 0, ctx.rnd⟩ := by
  simp [nbPrepare, hc, q0]

theorem nbShots_spec (n : ℕ) (gates : List Gate) (k : ℕ) : ∀ (be : NbBackend) (ctx : NbCtx) (save : Bool)
    (res : Counter), ctx.qubits.length = 2 ^ n → NbCacheOK n gates be →
    NbCacheOK n gates (nbShots n gates k be ctx save none res).1 ∧
      (nbShots n gates k be ctx save none res).2 = nbPlainShots n gates k ctx res := by
  induction k with
  | zero => intro be ctx save res hw hc; exact ⟨hc, rfl⟩
  | succ k ih =>
    intro be ctx save res hw hc
    -- a shot from a cache that is empty or right
    have main : ∀ (j : ℕ) (q : Arr), be.cacheIdx + 1 = (j : ℕ) →
        nbPrepare n be.cache ctx = .ok ⟨q, List.replicate n 0, ctx.rnd⟩ → j ≤ gates.length → q.length = 2 ^ n →
        Reached n (gates.take j) q → (∀ g ∈ gates.take j, GateOk n g) →
        NbCacheOK n gates (nbShots n gates (k + 1) be ctx save none res).1 ∧
          (nbShots n gates (k + 1) be ctx save none res).2 = nbPlainShots n gates (k + 1) ctx res := by
      intro j q hj hprep hjl hlq hr hok
      have hjn : (be.cacheIdx + 1).toNat = j := by omega
      obtain ⟨-, hnone, hsome⟩ := hc.basic
      have hg := nbGates_spec n gates be hc (gates.drop j) (gates.take j)
        ⟨⟨q, List.replicate n 0, ctx.rnd⟩, save, be.cache, be.cacheIdx, none⟩ (by simp)
        ⟨⟨hlq, by simp⟩, rfl, hok, by simp [hjl, hj], fun _ => ⟨by simp [hjl, hj], hr, rfl⟩,
          fun _ => ⟨hc, hnone, hsome⟩⟩
      have hsplit : nbPlain n gates ⟨q0 n, List.replicate n 0, ctx.rnd⟩ =
          nbPlain n (gates.drop j) ⟨q, List.replicate n 0, ctx.rnd⟩ := by
        conv_lhs => rw [← List.take_append_drop j gates, nbPlain_append]
        rw [hr _ _ (by simp)]
      simp only [nbShots, nbPlainShots, hprep, hjn, hsplit]
      rcases hgr : nbGates n (gates.drop j) ⟨⟨q, List.replicate n 0, ctx.rnd⟩, save, be.cache, be.cacheIdx, none⟩ with ⟨s, r⟩
      rw [hgr] at hg
      cases hpg : nbPlain n (gates.drop j) ⟨q, List.replicate n 0, ctx.rnd⟩ with
      | error e =>
        rw [hpg] at hg
        simp only at hg
        obtain ⟨hg1, hg2⟩ := hg
        subst hg1
        exact ⟨hg2, rfl⟩
      | ok c =>
        rw [hpg] at hg
        simp only at hg
        obtain ⟨hg1, hg2, hg3⟩ := hg
        subst hg1 hg2
        simp only
        have hfuse := hg3.fuse
        rw [hfuse]
        refine ih _ s.ctx s.save _ hg3.wf.q ?_
        cases hsv : s.save with
        | true =>
          obtain ⟨h1, h2, h3⟩ := hg3.save hsv
          by_cases hi : be.cacheIdx = s.idx
          · rw [if_neg (by simp [hi]), h3]; exact hc
          · rw [if_pos hi]
            refine .right gates.length s.ctx.qubits (by simp) h1 le_rfl hg3.wf.q ?_ ?_
            · rw [List.take_length]; exact h2
            · rw [List.take_length]; exact hg3.ok
        | false =>
          have h1 := (hg3.stop hsv).1
          by_cases hi : be.cacheIdx = s.idx
          · rw [if_neg (by simp [hi]), hi]; exact h1
          · rw [if_pos hi]; exact h1
    cases hc' : hc with
    | empty h1 h2 =>
      exact main 0 (q0 n) (by rw [h2]; rfl) (by rw [h1]; exact nbPrepare_none hw) (by simp) (q0_length n)
        (fun cr r _ => rfl) (by simp)
    | right j q h1 h2 h3 h4 h5 h6 => exact main j q h2 (by rw [h1]; exact nbPrepare_some h4 hw) h3 h4 h5 h6
    | stuck j q pre g post e h1 h2 h3 h4 h5 h6 h7 =>
      have hjn : (be.cacheIdx + 1).toNat = j := by omega
      have hdrop : gates.drop j = pre.drop j ++ g :: post := by
        rw [h3, List.drop_append_of_le_length h4]
      have hg := nbGates_stuck n h7 post (pre.drop j) (fun g hg => h6 g (List.mem_of_mem_drop hg))
        ⟨⟨q, List.replicate n 0, ctx.rnd⟩, save, be.cache, be.cacheIdx, none⟩ ⟨h5, by simp⟩ rfl ⟨q, h1, h5⟩
      have hplain : nbPlain n gates ⟨q0 n, List.replicate n 0, ctx.rnd⟩ = .error e := by
        rw [h3]; exact nbPlain_bad h6 h7 ⟨q0_length n, by simp⟩
      have hp : nbPrepare n be.cache ctx = .ok ⟨q, List.replicate n 0, ctx.rnd⟩ := by rw [h1]; exact nbPrepare_some h5 hw
      simp only [nbShots, nbPlainShots, hp, hjn, hdrop, hplain]
      rcases hgr : nbGates n (pre.drop j ++ g :: post) ⟨⟨q, List.replicate n 0, ctx.rnd⟩, save, be.cache, be.cacheIdx, none⟩ with ⟨s, r⟩
      rw [hgr] at hg
      obtain ⟨hg1, q', hg2, hg3⟩ := hg
      simp only at hg1 hg2
      subst hg1
      exact ⟨.stuck j q' pre g post e hg2 h2 h3 h4 hg3 h6 h7, rfl⟩

/-- The invariant kept across changes of the register size. -/
def NbCacheInv (gates : List Gate) (be : NbBackend) : Prop := ∀ n, NbCacheOK n gates (be.clearIfInvalid n)

theorem nbCacheInv_of_ok {n : ℕ} {gates : List Gate} {be : NbBackend} (h : NbCacheOK n gates be) :
    NbCacheInv gates be := by
  intro m
  cases hc : be.cache with
  | none => exact .empty (by simp [NbBackend.clearIfInvalid, hc]) (by simp [NbBackend.clearIfInvalid, hc])
  | some q =>
    have hq := h.basic.2.2 q hc
    by_cases hm : m = n
    · subst hm
      have : be.clearIfInvalid m = be := by simp [NbBackend.clearIfInvalid, hc, hq]
      rw [this]; exact h
    · have hne : (2 : ℕ) ^ n ≠ 2 ^ m := fun h => hm (Nat.pow_right_injective le_rfl h).symm
      exact .empty (by simp [NbBackend.clearIfInvalid, hc, hq, hne]) (by simp [NbBackend.clearIfInvalid, hc, hq, hne])

theorem nbCacheInv_new (gates : List Gate) : NbCacheInv gates NbBackend.new :=
  nbCacheInv_of_ok (n := 0) (.empty rfl rfl)

/-- What an uninterrupted run returns: the parsed arguments applied to the shots without a cache. -/
def nbPlainRun (n : ℕ) (gates : List Gate) (a : NbArgs) : Except PyErr (NpVal × (ℕ → ℝ)) :=
  match nbParse a.shots a.returns with
  | .error e => .error e
  | .ok (shots, returns) =>
    (nbPlainShots n gates shots.toNat ⟨List.replicate (2 ^ n) 0, [], a.rnd⟩ []).map fun r =>
      (npReturn returns (if a.ignoreGlobal then nbIgnoreGlobal r.1.qubits else r.1.qubits) r.1.cregs r.2, r.1.rnd)

theorem nbRunArgs_spec (n : ℕ) (gates : List Gate) (be : NbBackend) (h : NbCacheInv gates be) (a : NbArgs)
    (ha : a.interrupt = none) : NbCacheInv gates (nbRunArgs n gates be a).1 ∧
      (nbRunArgs n gates be a).2 = nbPlainRun n gates a := by
  simp only [nbRunArgs, nbPlainRun, ha]
  cases hp : nbParse a.shots a.returns with
  | error e => exact ⟨h, rfl⟩
  | ok p =>
    obtain ⟨s, ret⟩ := p
    have hc : NbCacheOK n gates (if a.enableCache then be.clearIfInvalid n else ⟨none, -1⟩) := by
      cases a.enableCache with
      | true => exact h n
      | false => exact .empty rfl rfl
    have h1 := nbShots_spec n gates s.toNat _ ⟨List.replicate (2 ^ n) 0, [], a.rnd⟩ a.enableCache [] (by simp) hc
    simp only
    rcases hr : nbShots n gates s.toNat (if a.enableCache then be.clearIfInvalid n else ⟨none, -1⟩)
      ⟨List.replicate (2 ^ n) 0, [], a.rnd⟩ a.enableCache none [] with ⟨b1, r1⟩
    rw [hr] at h1
    obtain ⟨h2, h3⟩ := h1
    simp only at h2 h3
    rw [← h3]
    cases r1 with
    | error e => exact ⟨nbCacheInv_of_ok h2, rfl⟩
    | ok x => exact ⟨nbCacheInv_of_ok h2, rfl⟩

end

end Blueqat
