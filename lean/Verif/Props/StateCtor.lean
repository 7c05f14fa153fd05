import Verif.Model.StateCtor
import Verif.Props.VState

/-! C214, C215: construction of variational states. -/

namespace Verif.StateCtor
open Verif.Hilbert (Err)
open Verif.VState (MC Sampler)

variable {Key Sh X P M Y R S Smp : Type}

/-- Specification: the initialiser and the function evaluating the state, for the arguments `a`: those of the model if there is one (flax; a pair of functions with
    two arguments each, as those of stax; haiku; any other object with the methods), otherwise the functions given. -/
inductive Provides (installed : Bool) (shape : X → Sh) (noState : M) (a : Args Key Sh X P M Y R) : Option (Key → X → P × M) → (P × M → X → Y) → Prop
  | flax (i f) (h : a.model = some (.flax i f)) : Provides installed shape noState a (some i) f
  | stax (i g) (h : a.model = some (.pair (some ⟨2, i⟩) (some ⟨2, g⟩))) :
    Provides installed shape noState a (some fun k x => (i k (shape x), noState)) (fun v x => g v.1 x)
  | haiku (i g) (hi : installed = true) (h : a.model = some (.haiku i g)) (hn : ¬ (i.nArgs = 2 ∧ g.nArgs = 2)) :
    Provides installed shape noState a (some fun k x => (i.fn k x, noState)) (fun v x => g.fn v.1 none x)
  | other (i f) (hi : installed = true) (h : a.model = some (.other i f)) : Provides installed shape noState a (some i) f
  | functions (f) (h : a.model = none) (hf : a.applyFun = some f) (hv : a.initFun.isSome ∨ a.vars.isSome) : Provides installed shape noState a a.initFun f

/-- Specification: the number of samples asked for, on all processes. -/
def wanted (n : Nat) (a : Args Key Sh X P M Y R) : Int :=
  match a.nSamples, a.nSamplesPerRank with
  | some k, _ => k
  | none, some k => k * n
  | none, none => 1000

/-- Specification: the discarded samples asked for, under the old or the new name. -/
def wantedDiscard (a : Args Key Sh X P M Y R) : Option Int :=
  match a.nDiscard with
  | some d => some d
  | none => a.nDiscardPerChain

/-- Specification: the variables given, otherwise those made by the initialiser with the key of `seed` (a drawn one without `seed`). -/
def VarsSpec (mk : Int → Key) (drawn : Int) (dummy : X) (given : Option (P × M)) (seed : Option (Seed Key)) (i : Option (Key → X → P × M)) (v : P × M) : Prop :=
  match given, i with
  | some v', _ => v = v'
  | none, some i => ∃ k, v = i k dummy ∧ match seed with
    | none => k = mk drawn
    | some (.int j) => k = mk j
    | some (.key k') => k = k'
  | none, none => False

theorem provides_functions {installed : Bool} {shape : X → Sh} {noState : M} {a : Args Key Sh X P M Y R} {i : Option (Key → X → P × M)} {f : P × M → X → Y}
    (h : Provides installed shape noState a i f) : functions installed shape noState a = .ok (i, f) := by
  cases h with
  | flax i f h => simp [functions, h, maybeWrap, identify, isFlax, plain]
  | stax i g h => simp [functions, h, maybeWrap, identify, isFlax, isJax, wrapJax]
  | haiku i g hi h hn =>
    have : (decide (i.nArgs = 2) && decide (g.nArgs = 2)) = false := by
      rw [Bool.eq_false_iff]; simpa using hn
    simp [functions, h, maybeWrap, identify, isFlax, isJax, isHaiku, wrapHaiku, hi, this]
  | other i f hi h => simp [functions, h, maybeWrap, identify, isFlax, isJax, isHaiku, plain, hi]
  | functions f h hf hv =>
    rcases hI : a.initFun with _ | i
    · rw [hI] at hv
      have : a.vars.isNone = false := by
        rcases hv with hv | hv
        · simp at hv
        · cases hx : a.vars <;> simp_all
      simp [functions, h, hf, hI, this]
    · simp [functions, h, hf, hI]

theorem make_ok (n : Nat) (hn : 0 < n) (v : P × M) (s : Sampler (P × M) (Option (Seed Key)) S Smp) (hs : 0 < s.nChainsPerRank) (sd : Option (Seed Key))
    (a b d : Option Int) (hab : ¬ (a.isSome ∧ b.isSome)) (k : Int) (hk : 0 < k)
    (hw : k = wanted n ({ nSamples := a, nSamplesPerRank := b } : Args Key Sh X P M Y R))
    (hd : ∀ x, d = some x → 0 ≤ x) :
    ∃ mc, MC.make n v s sd a b d = .ok mc ∧ mc.vars = v ∧ mc.sampler = s ∧ mc.seed = sd ∧ mc.samplerState = s.init v sd ∧ mc.samples = none ∧
      k ≤ mc.nSamples := by
  have hc : 0 < s.nChains n := Nat.mul_pos hs hn
  obtain ⟨w, h1, _, h3, _⟩ := Verif.VState.C48_samples n
    (MC.setSampler ⟨v.1, v.2, s, sd, s.init v sd, 0, 0, 0, 0, none⟩ s) hc k hk
  have hw' : w.vars = v ∧ w.sampler = s ∧ w.seed = sd ∧ w.samplerState = s.init v sd ∧ w.samples = none := by
    unfold MC.setNSamples at h1
    split at h1
    · simp at h1
    · simp only [Prod.mk.injEq, and_true] at h1
      rw [← h1]
      exact ⟨rfl, rfl, rfl, rfl, rfl⟩
  have hdd : (d.any fun d => decide (d < 0)) = false := by
    rcases d with _ | x
    · rfl
    · have := hd x rfl
      simp; omega
  have hfin : ∃ mc, w.setNDiscard d = (mc, none) ∧ mc.vars = v ∧ mc.sampler = s ∧ mc.seed = sd ∧ mc.samplerState = s.init v sd ∧ mc.samples = none ∧
      k ≤ mc.nSamples := by
    unfold MC.setNDiscard
    rw [hdd]
    exact ⟨_, rfl, hw'.1, hw'.2.1, hw'.2.2.1, hw'.2.2.2.1, hw'.2.2.2.2, h3⟩
  obtain ⟨mc, m1, m2⟩ := hfin
  refine ⟨mc, ?_, m2⟩
  rcases a with _ | x <;> rcases b with _ | y
  · simp only [wanted] at hw
    subst hw
    simp only [MC.make, Option.getD_none, h1, m1]
  · simp only [wanted] at hw
    subst hw
    simp only [MC.make, MC.setNSamplesPerRank, h1, m1]
  · simp only [wanted] at hw
    subst hw
    simp only [MC.make, Option.getD_some, h1, m1]
  · simp at hab

/-- C214: construction. With functions to be used, at most one name for each number, a positive number of samples, chains and processes, and no negative number of
    discarded samples, the state is constructed. It is evaluated with the functions of the model, sampled with `sample_fun` if given; the variables are those given, otherwise those
    made by the initialiser from the key of `seed`; the sampler starts from these variables with `sampler_seed`, else with the second half of the key of `seed`. -/
theorem C214_construct (installed : Bool) (shape : X → Sh) (noState : M) (mk : Int → Key) (drawn : Int) (split : Key → Key × Key) (n : Nat) (dummy : X)
    (s : Sampler (P × M) (Option (Seed Key)) S Smp) (a : Args Key Sh X P M Y R) {i : Option (Key → X → P × M)} {f : P × M → X → Y}
    (hf : Provides installed shape noState a i f) (hn : 0 < n) (hs : 0 < s.nChainsPerRank)
    (h1 : ¬ (a.nSamples.isSome ∧ a.nSamplesPerRank.isSome)) (h2 : ¬ (a.nDiscard.isSome ∧ a.nDiscardPerChain.isSome))
    (hk : 0 < wanted n a) (hd : ∀ d, wantedDiscard a = some d → 0 ≤ d) :
    ∃ st, construct installed shape noState mk drawn split n dummy s a = .ok st ∧ st.applyFun = f ∧ st.initFun = i ∧
      (st.sampleFun = match a.sampleFun with
        | some g => g
        | none => f) ∧
      VarsSpec mk drawn dummy a.vars a.seed i st.mc.vars ∧
      (match a.samplerSeed, a.seed with
        | some sd, _ => st.mc.seed = some sd
        | none, some (.int j) => st.mc.seed = some (.key (split (mk j)).2)
        | none, some (.key k) => st.mc.seed = some (.key (split k).2)
        | none, none => st.mc.seed = none) ∧
      st.mc.samplerState = s.init st.mc.vars st.mc.seed ∧ st.mc.sampler = s ∧ st.mc.samples = none ∧ wanted n a ≤ st.mc.nSamples := by
  have hF := provides_functions hf
  have e1 : (a.nSamples.isSome && a.nSamplesPerRank.isSome) = false := by
    rw [Bool.eq_false_iff]; simpa using h1
  have e2 : (a.nDiscard.isSome && a.nDiscardPerChain.isSome) = false := by
    rw [Bool.eq_false_iff]; simpa using h2
  have e3 : (if a.nDiscard.isSome then a.nDiscard else a.nDiscardPerChain) = wantedDiscard a := by
    unfold wantedDiscard
    rcases a.nDiscard with _ | d <;> rfl
  have hv : ∃ v, initialVars mk drawn dummy i a = .ok v ∧ VarsSpec mk drawn dummy a.vars a.seed i v := by
    rcases hx : a.vars with _ | v'
    · rcases i with _ | i
      · exfalso
        generalize hi : (none : Option (Key → X → P × M)) = j at hf
        cases hf with
        | flax => cases hi
        | stax => cases hi
        | haiku => cases hi
        | other => cases hi
        | functions f h hf hv => rw [hx, ← hi] at hv; simp at hv
      · refine ⟨i (prngKey mk drawn a.seed) dummy, by simp [initialVars, hx], _, rfl, ?_⟩
        rcases a.seed with _ | ⟨j⟩ | ⟨k⟩ <;> rfl
    · exact ⟨v', by simp [initialVars, hx], rfl⟩
  obtain ⟨v, hv1, hv2⟩ := hv
  obtain ⟨mc, m1, m2, m3, m4, m5, m6, m7⟩ := make_ok (Sh := Sh) (X := X) (Y := Y) (R := R) n hn v s hs (samplerSeed mk split a) a.nSamples a.nSamplesPerRank (wantedDiscard a) h1 (wanted n a) hk rfl hd
  refine ⟨⟨i, f, a.sampleFun.getD f, mc⟩, ?_, rfl, rfl, ?_, ?_, ?_, ?_, m3, m6, m7⟩
  · unfold construct
    rw [hF]
    dsimp only
    rw [e1, e2, e3, hv1]
    dsimp only
    rw [m1]
    rfl
  · rcases a.sampleFun with _ | g <;> rfl
  · dsimp only
    rw [m2]
    exact hv2
  · dsimp only
    rw [m4]
    unfold samplerSeed
    rcases a.samplerSeed with _ | sd
    · rcases a.seed with _ | ⟨j⟩ | ⟨k⟩ <;> rfl
    · rfl
  · dsimp only
    rw [m5, m4, m2]

/-- C214: no state without a function to evaluate it, without a way to obtain its variables, or with two numbers for one quantity: ValueError. -/
theorem C214_refuse (installed : Bool) (shape : X → Sh) (noState : M) (mk : Int → Key) (drawn : Int) (split : Key → Key × Key) (n : Nat) (dummy : X)
    (s : Sampler (P × M) (Option (Seed Key)) S Smp) (a : Args Key Sh X P M Y R) :
    ((a.model = none ∧ a.applyFun = none) ∨ (a.model = none ∧ a.initFun = none ∧ a.vars = none) →
      construct installed shape noState mk drawn split n dummy s a = .error (.err .valueError)) ∧
    ∀ i f, Provides installed shape noState a i f →
      (a.nSamples.isSome ∧ a.nSamplesPerRank.isSome) ∨ (a.nDiscard.isSome ∧ a.nDiscardPerChain.isSome) →
      construct installed shape noState mk drawn split n dummy s a = .error (.err .valueError) := by
  refine ⟨?_, ?_⟩
  · rintro (⟨h1, h2⟩ | ⟨h1, h2, h3⟩)
    · simp [construct, functions, h1, h2]
    · unfold construct functions
      rw [h1, h2, h3]
      rcases a.applyFun with _ | f <;> rfl
  · intro i f hf h
    have hF := provides_functions hf
    unfold construct
    rw [hF]
    dsimp only
    rcases h with ⟨h1, h2⟩ | ⟨h1, h2⟩
    · simp [h1, h2]
    · by_cases h3 : (a.nSamples.isSome && a.nSamplesPerRank.isSome) = true
      · simp [h3]
      · simp [h3, h1, h2]

/-- C214: with `seed` or with variables the constructor itself draws nothing at random (the sampler then gets a seed if one of the two seeds is given, see above). -/
theorem C214_seeded (installed : Bool) (shape : X → Sh) (noState : M) (mk : Int → Key) (split : Key → Key × Key) (n : Nat) (dummy : X)
    (s : Sampler (P × M) (Option (Seed Key)) S Smp) (a : Args Key Sh X P M Y R) (h : a.seed.isSome ∨ a.vars.isSome) (d d' : Int) :
    construct installed shape noState mk d split n dummy s a = construct installed shape noState mk d' split n dummy s a := by
  have : ∀ i : Option (Key → X → P × M), initialVars mk d dummy i a = initialVars mk d' dummy i a := by
    intro i
    unfold initialVars
    rcases h with h | h
    · rcases hs : a.seed with _ | ⟨j⟩ | ⟨k⟩
      · rw [hs] at h; cases h
      · rfl
      · rfl
    · rcases hs : a.vars with _ | v
      · rw [hs] at h; cases h
      · rfl
  unfold construct
  simp only [this]

/-- C214: `init` replaces the variables and forgets the samples; without an initialiser it raises RuntimeError and changes nothing. -/
theorem C214_init (mk : Int → Key) (drawn : Int) (dummy : X) (st : State Key X P M Y S Smp) (seed : Option (Seed Key)) :
    (st.initFun = none → st.init mk drawn dummy seed = (st, some .runtimeError)) ∧
    ∀ i, st.initFun = some i → ∃ k st', st.init mk drawn dummy seed = (st', none) ∧ st'.mc.vars = i k dummy ∧ st'.mc.samples = none ∧
      st'.mc.samplerState = st.mc.samplerState ∧ st'.applyFun = st.applyFun ∧
      (∀ j, seed = some (.int j) → k = mk j) ∧ ∀ k', seed = some (.key k') → k = k' := by
  refine ⟨fun h => by simp [State.init, h], fun i h => ⟨prngKey mk drawn seed, { st with mc := st.mc.setVars (i (prngKey mk drawn seed) dummy) }, by simp only [State.init, h], rfl, rfl, rfl, rfl, ?_, ?_⟩⟩
  · rintro j rfl; rfl
  · rintro k' rfl; rfl

/-- C214: wrapped models of other frameworks have no model state: evaluating them with `mutable` raises ValueError; otherwise nothing is returned besides the value. -/
theorem C214_mutable (shape : X → Sh) (noState : M) (m : Module Key Sh X P M Y R) (fw : Framework) (w : Wrapped Key X P M Y)
    (hm : maybeWrap true shape noState m = .ok (fw, w)) (new : P × M → X → M) (v : P × M) (x : X) (f : P × M → X → Y) (hf : w.apply = some f) :
    w.call new v x false = .ok (f v x, none) ∧
    (w.call new v x true = .error (.err .valueError) ↔ (∃ i g, m = .pair (some ⟨2, i⟩) (some ⟨2, g⟩)) ∨
      ∃ i g, m = .haiku i g ∧ ¬ (i.nArgs = 2 ∧ g.nArgs = 2)) := by
  refine ⟨by simp [Wrapped.call, hf], ?_⟩
  have hc : w.call new v x true = .error (.err .valueError) ↔ w.fixed = true := by
    cases hw : w.fixed <;> simp [Wrapped.call, hf, hw]
  rw [hc]
  cases m with
  | flax i g =>
    simp only [maybeWrap, identify, isFlax, if_true, Except.ok.injEq, Prod.mk.injEq] at hm
    rw [← hm.2]; simp [plain]
  | tuple k =>
    simp only [maybeWrap, identify, isFlax, isJax, isHaiku] at hm
    simp only [Bool.not_true, Bool.false_eq_true, if_false, Except.ok.injEq, Prod.mk.injEq] at hm
    rw [← hm.2] at hf; simp [plain] at hf
  | other i g =>
    simp only [maybeWrap, identify, isFlax, isJax, isHaiku] at hm
    simp only [Bool.not_true, Bool.false_eq_true, if_false, Except.ok.injEq, Prod.mk.injEq] at hm
    rw [← hm.2]; simp [plain]
  | haiku i g =>
    by_cases hn : i.nArgs = 2 ∧ g.nArgs = 2
    · simp only [maybeWrap, identify, isFlax, isJax, hn, decide_true, Bool.and_self, Bool.false_eq_true, if_false, if_true, Except.ok.injEq, Prod.mk.injEq] at hm
      rw [← hm.2] at hf; simp [wrapJax, plain] at hf
    · have : (decide (i.nArgs = 2) && decide (g.nArgs = 2)) = false := by
        rw [Bool.eq_false_iff]; simpa using hn
      simp only [maybeWrap, identify, isFlax, isJax, isHaiku, this] at hm
      simp only [Bool.not_true, Bool.false_eq_true, if_false, Except.ok.injEq, Prod.mk.injEq] at hm
      rw [← hm.2]
      simp only [wrapHaiku, true_iff]
      exact .inr ⟨i, g, rfl, hn⟩
  | pair i g =>
    by_cases hj : isJax (.pair i g : Module Key Sh X P M Y R) = true
    · rcases i with _ | ⟨ni, i⟩ <;> rcases g with _ | ⟨ng, g⟩ <;> simp only [isJax, Bool.false_eq_true] at hj
      simp only [Bool.and_eq_true, decide_eq_true_eq] at hj
      obtain ⟨rfl, rfl⟩ := hj
      simp [maybeWrap, identify, isFlax, isJax, wrapJax] at hm
      rw [← hm.2]
      simp
    · rw [Bool.not_eq_true] at hj
      simp only [maybeWrap, identify, isFlax, hj, isHaiku] at hm
      simp only [Bool.not_true, Bool.false_eq_true, if_false, Except.ok.injEq, Prod.mk.injEq] at hm
      rw [← hm.2] at hf; simp [plain] at hf

/-! ### deviations -/

/-- C215: "init_fun … Only specify if your network has a non-standard init method", "apply_fun … Defaults to `model.apply`": together with a model they are ignored. -/
theorem C215_ignored_refuted (installed : Bool) (shape : X → Sh) (noState : M) (mk : Int → Key) (drawn : Int) (split : Key → Key × Key) (n : Nat) (dummy : X)
    (s : Sampler (P × M) (Option (Seed Key)) S Smp) (a : Args Key Sh X P M Y R) (m : Module Key Sh X P M Y R) (hm : a.model = some m)
    (i : Option (Key → X → P × M)) (f : Option (P × M → X → Y)) :
    construct installed shape noState mk drawn split n dummy s { a with initFun := i, applyFun := f } =
      construct installed shape noState mk drawn split n dummy s a := by
  have h1 : functions installed shape noState { a with initFun := i, applyFun := f } = functions installed shape noState a := by
    simp only [functions, hm]
  unfold construct
  rw [h1]
  rfl

/-- C215: "attempt to identify what is the package/framework it comes from, and if so …": without haiku installed, a model of no known framework is not used as it is,
    but raises ModuleNotFoundError. -/
theorem C215_unknown_refuted (shape : X → Sh) (noState : M) (mk : Int → Key) (drawn : Int) (split : Key → Key × Key) (n : Nat) (dummy : X)
    (s : Sampler (P × M) (Option (Seed Key)) S Smp) (a : Args Key Sh X P M Y R) (i : Key → X → P × M) (f : P × M → X → Y) (hm : a.model = some (.other i f)) :
    construct false shape noState mk drawn split n dummy s a = .error .moduleNotFound := by
  simp [construct, functions, hm, maybeWrap, identify, isFlax, isJax, isHaiku]

/-- C215: what holds instead: models of flax and pairs of functions with two arguments each are found with and without haiku. -/
theorem C215_unknown_partial (installed : Bool) (shape : X → Sh) (noState : M) (a : Args Key Sh X P M Y R) (i : Option (Key → X → P × M)) (f : P × M → X → Y) :
    ((∃ i' f', a.model = some (.flax i' f')) ∨ ∃ i' f', a.model = some (.pair (some ⟨2, i'⟩) (some ⟨2, f'⟩))) →
    (Provides installed shape noState a i f → functions false shape noState a = .ok (i, f)) := by
  rintro (⟨i', f', h⟩ | ⟨i', f', h⟩) hp
  · cases hp with
    | flax _ _ h' => exact provides_functions (.flax _ _ h')
    | stax _ _ h' => rw [h] at h'; simp at h'
    | haiku _ _ _ h' => rw [h] at h'; simp at h'
    | other _ _ _ h' => rw [h] at h'; simp at h'
    | functions _ h' => rw [h] at h'; simp at h'
  · cases hp with
    | flax _ _ h' => rw [h] at h'; simp at h'
    | stax _ _ h' => exact provides_functions (.stax _ _ h')
    | haiku _ _ _ h' => rw [h] at h'; simp at h'
    | other _ _ _ h' => rw [h] at h'; simp at h'
    | functions _ h' => rw [h] at h'; simp at h'

/-- loading a stored state into a state with a haiku model (vqs/mc_state.py:862-880 with utils/model_frameworks/haiku.py:94-112): flax restores the parameters with the registered function. -/
def loadHaiku {Sd : Type} (n : Nat) (v : MC P M Sd S Smp) (d : Verif.VState.Dict P M S) : Except Err (MC P M Sd S Smp) :=
  v.deserialize n { d with vars := (deserializeHaiku v.params (serializeHaiku d.vars.1), d.vars.2) }

/-- C215: loading a stored state never changes the parameters of a haiku model. -/
theorem C215_haiku_load_refuted {Sd : Type} (n : Nat) (v w : MC P M Sd S Smp) (d : Verif.VState.Dict P M S) (h : loadHaiku n v d = .ok w) : w.params = v.params := by
  simp only [loadHaiku, MC.deserialize, deserializeHaiku] at h
  unfold MC.setNSamples at h
  split at h
  · cases h
  · rename_i heq
    split at heq
    · simp at heq
    · simp only [Prod.mk.injEq, and_true] at heq
      unfold MC.setNDiscard at h
      split at h
      · cases h
      · rename_i h2
        split at h2
        · simp at h2
        · simp only [Prod.mk.injEq, and_true] at h2
          simp only [Except.ok.injEq] at h
          rw [← h, ← h2, ← heq]
          rfl

/-! ### examples -/

/-- a sampler with two chains which returns its seed. -/
def toySampler : Sampler (Nat × Nat) (Option (Seed Nat)) (Option (Seed Nat)) (List Nat) :=
  ⟨2, false, 2, fun _ sd => sd, fun _ s => s, fun v s l => (List.replicate l v.1, s)⟩

/-- a stax-like pair: the parameter is the sum of key and size. -/
def toyPair : Module Nat Nat (List Nat) Nat Nat Nat Unit := .pair (some ⟨2, fun k sh => k + sh⟩) (some ⟨2, fun p x => p * x.length⟩)

example : ∃ st, construct false List.length 0 (fun j => j.toNat) 99 (fun k => (k, k + 1)) 3 [0, 0] toySampler
      { model := some toyPair, seed := some (.int 5), nSamples := some 10 } = .ok st ∧
    st.mc.vars = (7, 0) ∧ st.mc.nSamples = 12 ∧ st.applyFun st.mc.vars [1, 1, 1] = 21 := by
  refine ⟨_, rfl, ?_, ?_, ?_⟩ <;> decide +kernel

example : Provides (Y := Nat) (R := Unit) false (List.length (α := Nat)) (0 : Nat)
    { model := some toyPair, seed := some (.int 5), nSamples := some 10 } (some fun k x => (k + x.length, 0)) (fun v x => v.1 * x.length) :=
  .stax (fun k sh => k + sh) (fun p (x : List Nat) => p * x.length) rfl

example : construct (Y := Nat) (R := Unit) false (List.length (α := Nat)) (0 : Nat) (fun j => j.toNat) 99 (fun k => (k, k + 1)) 3 [0, 0] toySampler
    { model := some (.other (fun k x => (k + x.length, 0)) fun v _ => v.1) } = .error .moduleNotFound :=
  C215_unknown_refuted _ _ _ _ _ _ _ _ _ _ _ rfl

end Verif.StateCtor
