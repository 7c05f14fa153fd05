import Verif.Model.MCState
import Mathlib.Tactic.Ring
import Mathlib.Tactic.Linarith
import Mathlib.Data.Int.Init

/-! C48 (numbers of chains and samples), C56 (sample cache), C57 (mixed states), C58 (serialization),
C60 (`sample`), C80 (construction of mixed states). -/

namespace Verif.VState

open Verif.Hilbert (Err)

set_option linter.unusedSectionVars false

variable {P M Sd S X : Type}

/-! ### C48 -/

theorem ceilDiv_le_iff (a : Int) (b : Nat) (hb : 0 < b) (k : Int) : ceilDiv a b ≤ k ↔ a ≤ k * b := by
  have hb' : (0 : Int) < b := by exact_mod_cast hb
  unfold ceilDiv
  rw [neg_le, Int.le_ediv_iff_mul_le hb']
  constructor <;> intro h <;> nlinarith

theorem le_ceilDiv_mul (a : Int) (b : Nat) (hb : 0 < b) : a ≤ ceilDiv a b * b :=
  (ceilDiv_le_iff a b hb _).1 le_rfl

theorem ceilDiv_pos (a : Int) (b : Nat) (hb : 0 < b) (ha : 0 < a) : 0 < ceilDiv a b := by
  by_contra h
  have := (ceilDiv_le_iff a b hb 0).1 (not_lt.1 h)
  omega

/-- requesting `r` chains gives at least `r` chains in total, with the smallest positive number of chains
    per rank for which that holds. -/
theorem C48_chains (n : Nat) (hn : 0 < n) (r : Int) :
    ∃ k, preInit n (some r) none = .ok k ∧ 1 ≤ k ∧ r ≤ k * n ∧
      ∀ m : Int, 1 ≤ m → r ≤ m * n → k ≤ m := by
  refine ⟨max (ceilDiv r n) 1, rfl, le_max_right _ _, ?_, ?_⟩
  · refine le_trans (le_ceilDiv_mul r n hn) ?_
    exact mul_le_mul_of_nonneg_right (le_max_left _ _) (by positivity)
  · intro m h1 h2
    exact max_le ((ceilDiv_le_iff r n hn m).2 h2) h1

example := C48_chains 4 (by decide) 10

/-- defaults and conflicting arguments. -/
theorem C48_chains_args (n : Nat) (k : Int) (r : Int) :
    preInit n none (some k) = .ok k ∧ preInit n (some r) (some k) = .error .valueError ∧
    preInit n none none = preInit n (some 16) none ∧
    ∀ a b, (∃ e, preInit n a b = .error e) ↔ a.isSome ∧ b.isSome := by
  refine ⟨rfl, rfl, rfl, fun a b => ?_⟩
  cases a <;> cases b <;> simp [preInit]

/-- requesting `r > 0` samples gives at least `r` samples: the smallest possible chain length times the
    number of chains; the samples are divided evenly over the ranks; the cache is dropped. -/
theorem C48_samples (n : Nat) (v : MC P M Sd S X) (hc : 0 < v.sampler.nChains n) (r : Int) (hr : 0 < r) :
    ∃ w, v.setNSamples n r = (w, none) ∧ w.nSamples = w.chainLength * v.sampler.nChains n ∧
      r ≤ w.nSamples ∧ (∀ l : Nat, r ≤ (l * v.sampler.nChains n : Nat) → w.chainLength ≤ l) ∧
      w.nSamples = w.nPerNode * n ∧ w.samples = none ∧ w.sampler = v.sampler ∧ w.vars = v.vars ∧
      w.nDiscard = v.nDiscard := by
  have hce : computeChainLength (v.sampler.nChains n) r
      = .ok (ceilDiv r (v.sampler.nChains n)).toNat := by
    unfold computeChainLength
    rw [if_neg (by omega), if_neg (by omega)]
  have hpos := ceilDiv_pos r _ hc hr
  have he : v.setNSamples n r = (({ v with
      nSamples := (ceilDiv r (v.sampler.nChains n)).toNat * v.sampler.nChains n,
      chainLength := (ceilDiv r (v.sampler.nChains n)).toNat,
      nPerNode := (ceilDiv r (v.sampler.nChains n)).toNat * v.sampler.nChainsPerRank }).reset, none) := by
    rw [MC.setNSamples, hce]
  refine ⟨_, he, rfl, ?_, ?_, ?_, rfl, rfl, rfl, rfl⟩
  · have := le_ceilDiv_mul r _ hc
    simp only [MC.reset]
    push_cast
    rw [Int.toNat_of_nonneg hpos.le]
    exact this
  · intro l hl
    have := (ceilDiv_le_iff r _ hc l).2 (by push_cast at hl; exact hl)
    simp only [MC.reset]
    omega
  · simp only [MC.reset, Sampler.nChains]; ring

/-- a number of samples that is not positive is rejected and nothing changes. -/
theorem C48_samples_invalid (n : Nat) (v : MC P M Sd S X) (r : Int) (hr : r ≤ 0) :
    v.setNSamples n r = (v, some .valueError) := by
  unfold MC.setNSamples computeChainLength
  rw [if_pos hr]

/-- the per-rank setter gives at least the requested number of samples on every rank, with the smallest
    possible chain length. -/
theorem C48_per_rank_setter (n : Nat) (hn : 0 < n) (v : MC P M Sd S X)
    (hc : 0 < v.sampler.nChainsPerRank) (r : Int) (hr : 0 < r) :
    ∃ w, v.setNSamplesPerRank n r = (w, none) ∧
      w.nPerNode = w.chainLength * v.sampler.nChainsPerRank ∧ r ≤ w.nPerNode ∧
      (∀ l : Nat, r ≤ (l * v.sampler.nChainsPerRank : Nat) → w.chainLength ≤ l) := by
  have hcn : 0 < v.sampler.nChains n := Nat.mul_pos hc hn
  have hn' : (0 : Int) < n := by exact_mod_cast hn
  have hrn : 0 < r * n := mul_pos hr hn'
  obtain ⟨w, hw, h1, h2, h3, h4, _⟩ := C48_samples n v hcn (r * n) hrn
  refine ⟨w, hw, ?_, ?_, ?_⟩
  · rw [h1, Sampler.nChains, ← Nat.mul_assoc] at h4
    exact (Nat.eq_of_mul_eq_mul_right hn h4).symm
  · rw [h4] at h2
    push_cast at h2
    exact le_of_mul_le_mul_right h2 hn'
  · intro l hl
    refine h3 l ?_
    rw [Sampler.nChains, ← Nat.mul_assoc]
    push_cast
    push_cast at hl
    exact mul_le_mul_of_nonneg_right hl hn'.le

/-- on one rank, setting the chain length to `l` gives chain length `l`. -/
theorem C120_chain_length_partial (v : MC P M Sd S X) (hc : 0 < v.sampler.nChainsPerRank) (l : Nat)
    (hl : 0 < l) :
    ∃ w, v.setChainLength 1 l = (w, none) ∧ w.chainLength = l ∧ w.nSamples = l * v.sampler.nChains 1 := by
  have hcn : 0 < v.sampler.nChains 1 := by simpa [Sampler.nChains] using hc
  have hr : (0 : Int) < (l : Int) * v.sampler.nChains 1 * (1 : Nat) := by
    have h1 : (0 : Int) < (l : Int) := by exact_mod_cast hl
    have h2 : (0 : Int) < (v.sampler.nChains 1 : Nat) := by exact_mod_cast hcn
    simpa using mul_pos h1 h2
  obtain ⟨w, hw, h1, h2, h3, _⟩ := C48_samples 1 v hcn _ hr
  refine ⟨w.reset, by rw [MC.setChainLength, hw], ?_, ?_⟩
  all_goals
    have hle := h3 l (by push_cast; simp)
    have hge : l ≤ w.chainLength := by
      rw [h1] at h2
      push_cast at h2
      rw [mul_one] at h2
      have h2' : (0 : Int) < (v.sampler.nChains 1 : Nat) := by exact_mod_cast hcn
      exact_mod_cast le_of_mul_le_mul_right h2 h2'
    have he : w.chainLength = l := le_antisymm hle hge
  · exact he
  · simp only [MC.reset]; rw [h1, he]

/-- a sampler without randomness, for examples and refutations: every sample is the parameter. -/
def toy (k : Nat) (exact : Bool) : Sampler (Nat × Nat) Unit Nat (List Nat) where
  nChainsPerRank := k
  isExact := exact
  machinePow := 2
  init := fun _ _ => 0
  reset := fun _ s => s
  chain := fun v s l => ((List.range l).map fun i => 1000 * v.1 + s + i, s + l)

/-- an `MCState` built with the toy sampler. -/
def toyMC (n k : Nat) (exact : Bool) : Except Err (MC Nat Nat Unit Nat (List Nat)) :=
  MC.make n (7, 0) (toy k exact) () (some 10) none none

/-- The full claim on the accessors: what has been set is read back (rounded up to full chains). It fails
    for the chain length on several ranks … -/
theorem C120_chain_length_refuted :
    ¬ ∀ (n : Nat) (v w : MC Nat Nat Unit Nat (List Nat)) (l : Nat), 0 < n → 0 < l →
      0 < v.sampler.nChainsPerRank → v.setChainLength n l = (w, none) → w.chainLength = l := by
  intro h
  rcases hm : toyMC 2 1 false with e | v
  · have : (match toyMC 2 1 false with | .ok _ => true | .error _ => false) = true := by decide +kernel
    rw [hm] at this; simp at this
  · have hw : (match toyMC 2 1 false with
      | .ok v => decide ((v.setChainLength 2 3).1.chainLength ≠ 3 ∧ (v.setChainLength 2 3).2 = none ∧
          0 < v.sampler.nChainsPerRank)
      | .error _ => false) = true := by decide +kernel
    rw [hm] at hw
    simp only [decide_eq_true_eq] at hw
    exact hw.1 (h 2 v (v.setChainLength 2 3).1 3 (by decide) (by decide) hw.2.2
      (Prod.ext rfl hw.2.1))

/-- … and for the number of samples per rank already on a single rank: the getter returns the chain
    length times the number of ranks. -/
theorem C120_per_rank_getter_refuted :
    ¬ ∀ (n : Nat) (v w : MC Nat Nat Unit Nat (List Nat)) (k : Nat), 0 < n → 0 < k →
      0 < v.sampler.nChainsPerRank → v.setNSamplesPerRank n k = (w, none) →
      (k : Int) ≤ w.nSamplesPerRank n ∧ w.nSamplesPerRank n * n = w.nSamples := by
  intro h
  rcases hm : toyMC 1 4 false with e | v
  · have : (match toyMC 1 4 false with | .ok _ => true | .error _ => false) = true := by decide +kernel
    rw [hm] at this; simp at this
  · have hw : (match toyMC 1 4 false with
      | .ok v => decide (¬ ((20 : Int) ≤ (v.setNSamplesPerRank 1 20).1.nSamplesPerRank 1) ∧
          (v.setNSamplesPerRank 1 20).2 = none ∧ 0 < v.sampler.nChainsPerRank)
      | .error _ => false) = true := by decide +kernel
    rw [hm] at hw
    simp only [decide_eq_true_eq] at hw
    exact hw.1 (h 1 v (v.setNSamplesPerRank 1 20).1 20 (by decide) (by decide) hw.2.2
      (Prod.ext rfl hw.2.1)).1

/-- the getter is right exactly when the number of chains per rank equals the number of ranks (or the
    chain is empty). -/
theorem C120_per_rank_getter_iff (n : Nat) (v : MC P M Sd S X)
    (h : v.nPerNode = v.chainLength * v.sampler.nChainsPerRank) :
    v.nSamplesPerRank n = v.nPerNode ↔ v.chainLength = 0 ∨ v.sampler.nChainsPerRank = n := by
  rw [h, MC.nSamplesPerRank, Nat.mul_right_inj_iff, or_comm, eq_comm (a := n)]
where
  Nat.mul_right_inj_iff {a b c : Nat} : a * b = a * c ↔ b = c ∨ a = 0 := by
    rw [mul_eq_mul_left_iff]

/-! ### C56 -/

/-- `x` can be obtained by sampling with the variables and the sampler of `v`: reset, possibly discard
    some samples, draw a chain of length `l`. -/
def Drawn (v : MC P M Sd S X) (l : Nat) (x : X) : Prop :=
  ∃ st, (x = (v.sampler.chain v.vars (v.sampler.reset v.vars st) l).1 ∨
    ∃ d, x = (v.sampler.chain v.vars (v.sampler.chain v.vars (v.sampler.reset v.vars st) d).2 l).1)

/-- cached samples belong to the current variables and sampler. -/
def Valid (v : MC P M Sd S X) : Prop := ∀ x, v.samples = some x → ∃ l, Drawn v l x

theorem valid_none (v : MC P M Sd S X) (h : v.samples = none) : Valid v := by
  intro x hx; rw [h] at hx; exact absurd hx (by simp)

theorem setNSamples_cases (n : Nat) (v : MC P M Sd S X) (k : Int) :
    (v.setNSamples n k).1 = v ∨
    ((v.setNSamples n k).1.samples = none ∧ (v.setNSamples n k).1.vars = v.vars ∧
      (v.setNSamples n k).1.sampler = v.sampler) := by
  unfold MC.setNSamples
  split
  · exact Or.inl rfl
  · exact Or.inr ⟨rfl, rfl, rfl⟩

theorem setChainLength_cases (n : Nat) (v : MC P M Sd S X) (k : Int) :
    (v.setChainLength n k).1 = v ∨
    ((v.setChainLength n k).1.samples = none ∧ (v.setChainLength n k).1.vars = v.vars ∧
      (v.setChainLength n k).1.sampler = v.sampler) := by
  unfold MC.setChainLength
  rcases setNSamples_cases n v (k * v.sampler.nChains n * n) with h | h
  · rcases hs : v.setNSamples n (k * v.sampler.nChains n * n) with ⟨w, e⟩
    rw [hs] at h
    simp only at h
    subst h
    rcases e with _ | e
    · right; exact ⟨rfl, rfl, rfl⟩
    · left; rfl
  · rcases hs : v.setNSamples n (k * v.sampler.nChains n * n) with ⟨w, e⟩
    rw [hs] at h
    right
    rcases e with _ | e
    · exact ⟨rfl, h.2.1, h.2.2⟩
    · exact h

theorem sample_spec (n : Nat) (v : MC P M Sd S X) (l : Option Nat) (k : Option Int) (d : Option Nat) :
    (∃ e, v.sample n l k d = (v, .error e) ∧ v.resolveLength n l k = .error e) ∨
    ∃ len x, v.resolveLength n l k = .ok len ∧ (v.sample n l k d).2 = .ok x ∧
      (v.sample n l k d).1.samples = some x ∧ (v.sample n l k d).1.vars = v.vars ∧
      (v.sample n l k d).1.sampler = v.sampler ∧ (v.sample n l k d).1.chainLength = v.chainLength ∧
      Drawn v len x := by
  unfold MC.sample
  rcases v.resolveLength n l k with e | len
  · exact Or.inl ⟨e, rfl, rfl⟩
  · refine Or.inr ⟨len, _, rfl, rfl, rfl, rfl, rfl, rfl, v.samplerState, ?_⟩
    by_cases h : 0 < v.nDiscard
    · right
      refine ⟨d.getD v.nDiscard, ?_⟩
      simp only [h, if_true]
    · left
      simp only [h, if_false]

theorem drawn_congr (v w : MC P M Sd S X) (h1 : w.vars = v.vars) (h2 : w.sampler = v.sampler) (l : Nat)
    (x : X) (h : Drawn v l x) : Drawn w l x := by
  unfold Drawn at *; rw [h1, h2]; exact h

/-- After every sequence of calls the cached samples were drawn with the current parameters, model state
    and sampler. -/
theorem C56_valid_step (n : Nat) (v : MC P M Sd S X) (hv : Valid v) (op : Op P M Sd S X) :
    Valid (v.apply n op) := by
  have hsample : ∀ l k d, Valid (v.sample n l k d).1 := by
    intro l k d
    rcases sample_spec n v l k d with ⟨e, h, _⟩ | ⟨len, x, _, _, h2, h3, h4, _, h5⟩
    · rw [h]; exact hv
    · intro y hy
      rw [h2] at hy
      cases hy
      exact ⟨len, drawn_congr v _ h3 h4 _ _ h5⟩
  cases op with
  | setParams p => exact valid_none _ rfl
  | setMState m => exact valid_none _ rfl
  | setVars w => exact valid_none _ rfl
  | setSampler s => exact valid_none _ rfl
  | setSamplerState s => exact hv
  | setNSamples k =>
    rcases setNSamples_cases n v k with h | ⟨h, _⟩
    · simp only [MC.apply]; rw [h]; exact hv
    · exact valid_none _ h
  | setNSamplesPerRank k =>
    rcases setNSamples_cases n v (k * n) with h | ⟨h, _⟩
    · simp only [MC.apply, MC.setNSamplesPerRank]; rw [h]; exact hv
    · exact valid_none _ h
  | setChainLength k =>
    rcases setChainLength_cases n v k with h | ⟨h, _⟩
    · simp only [MC.apply]; rw [h]; exact hv
    · exact valid_none _ h
  | setNDiscard d =>
    have : (v.setNDiscard d).1.samples = v.samples ∧ (v.setNDiscard d).1.vars = v.vars ∧
        (v.setNDiscard d).1.sampler = v.sampler := by
      unfold MC.setNDiscard; split <;> exact ⟨rfl, rfl, rfl⟩
    intro x hx
    simp only [MC.apply] at hx ⊢
    rw [this.1] at hx
    obtain ⟨l, h⟩ := hv x hx
    exact ⟨l, drawn_congr v _ this.2.1 this.2.2 _ _ h⟩
  | reset => exact valid_none _ rfl
  | sample l k d => exact hsample l k d
  | getSamples =>
    simp only [MC.apply, MC.getSamples]
    split
    · exact hv
    · exact hsample none none none

theorem C56_valid (n : Nat) (v : MC P M Sd S X) (hv : Valid v) (ops : List (Op P M Sd S X)) :
    Valid (ops.foldl (MC.apply n) v) := by
  induction ops generalizing v with
  | nil => exact hv
  | cons op ops ih => exact ih _ (C56_valid_step n v hv op)

theorem make_valid (n : Nat) (vars : P × M) (s : Sampler (P × M) Sd S X) (seed : Sd)
    (a b d : Option Int) (v : MC P M Sd S X) (h : MC.make n vars s seed a b d = .ok v) :
    v.samples = none ∧ v.vars = vars ∧ v.sampler = s := by
  have key : ∀ (v0 : MC P M Sd S X) (r : MC P M Sd S X × Option Err), v0.samples = none → v0.vars = vars →
      v0.sampler = s → (∃ k, r = v0.setNSamples n k) →
      (match r with
        | (_, some e) => (.error e : Except Err (MC P M Sd S X))
        | (v, none) =>
          match v.setNDiscard d with
          | (_, some e) => .error e
          | (v, none) => .ok v) = .ok v → v.samples = none ∧ v.vars = vars ∧ v.sampler = s := by
    intro v0 r h1 h2 h3 ⟨k, hk⟩ hr
    have hc := setNSamples_cases n v0 k
    rw [← hk] at hc
    rcases r with ⟨w, e⟩
    have hw : w.samples = none ∧ w.vars = vars ∧ w.sampler = s := by
      rcases hc with hc | hc
      · simp only at hc; rw [hc]; exact ⟨h1, h2, h3⟩
      · exact ⟨hc.1, hc.2.1.trans h2, hc.2.2.trans h3⟩
    rcases e with _ | e
    · simp only at hr
      unfold MC.setNDiscard at hr
      split at hr
      · exact absurd hr (by simp)
      · rename_i heq
        split at heq
        · simp at heq
        · simp only [Prod.mk.injEq, and_true] at heq
          simp only [Except.ok.injEq] at hr
          rw [← hr, ← heq]
          exact hw
    · exact absurd hr (by simp)
  unfold MC.make at h
  split at h
  · exact absurd h (by simp)
  · refine key (MC.setSampler ⟨vars.1, vars.2, s, seed, s.init vars seed, 0, 0, 0, 0, none⟩ s) _
      ?_ ?_ ?_ ?_ h
    · rfl
    · rfl
    · rfl
    · split
      · exact ⟨_, rfl⟩
      · exact ⟨_, rfl⟩

/-- from the constructor on. -/
theorem C56_samples (n : Nat) (vars : P × M) (s : Sampler (P × M) Sd S X) (seed : Sd)
    (a b d : Option Int) (v0 : MC P M Sd S X) (h0 : MC.make n vars s seed a b d = .ok v0)
    (ops : List (Op P M Sd S X)) (v : MC P M Sd S X) (hv : v = ops.foldl (MC.apply n) v0) (x : X)
    (hx : (v.getSamples n).2 = .ok x) :
    (∃ l, Drawn v l x) ∧ ((v.getSamples n).1).getSamples n = ((v.getSamples n).1, .ok x) := by
  have hval : Valid v := by
    rw [hv]; exact C56_valid n v0 (valid_none _ (make_valid n vars s seed a b d v0 h0).1) ops
  unfold MC.getSamples at hx ⊢
  rcases hs : v.samples with _ | y
  · rw [hs] at hx
    simp only at hx ⊢
    rcases sample_spec n v none none none with ⟨e, h, _⟩ | ⟨len, z, _, h1, h2, h3, h4, _, h5⟩
    · rw [h] at hx; simp at hx
    · rw [h1] at hx
      cases hx
      refine ⟨⟨len, h5⟩, ?_⟩
      rw [h2]
  · rw [hs] at hx
    simp only [Except.ok.injEq] at hx
    subst hx
    refine ⟨hval y hs, ?_⟩
    simp only [hs]

/-- the cached samples also have the current chain length, as long as `sample` is only called without
    explicit lengths. -/
def ValidLen (v : MC P M Sd S X) : Prop := ∀ x, v.samples = some x → Drawn v v.chainLength x

/-- calls without explicit chain length or number of samples. -/
def Op.plain : Op P M Sd S X → Prop
  | .sample l k _ => l = none ∧ k = none
  | _ => True

theorem C120_length_partial (n : Nat) (v : MC P M Sd S X) (hv : ValidLen v) (ops : List (Op P M Sd S X))
    (hops : ∀ op ∈ ops, op.plain) : ValidLen (ops.foldl (MC.apply n) v) := by
  induction ops generalizing v with
  | nil => exact hv
  | cons op ops ih =>
    refine ih _ ?_ fun o ho => hops o (List.mem_cons_of_mem _ ho)
    have hp := hops op List.mem_cons_self
    have hnone : ∀ w : MC P M Sd S X, w.samples = none → ValidLen w := by
      intro w h x hx; rw [h] at hx; exact absurd hx (by simp)
    have hsample : ∀ d, ValidLen (v.sample n none none d).1 := by
      intro d
      rcases sample_spec n v none none d with ⟨e, h, _⟩ | ⟨len, x, h1, _, h2, h3, h4, h6, h5⟩
      · rw [h]; exact hv
      · intro y hy
        rw [h2] at hy
        cases hy
        simp only [MC.resolveLength, Except.ok.injEq] at h1
        rw [h6, h1]
        exact drawn_congr v _ h3 h4 _ _ h5
    cases op with
    | setParams p => exact hnone _ rfl
    | setMState m => exact hnone _ rfl
    | setVars w => exact hnone _ rfl
    | setSampler s => exact hnone _ rfl
    | setSamplerState s => exact hv
    | setNSamples k =>
      rcases setNSamples_cases n v k with h | ⟨h, _⟩
      · simp only [MC.apply]; rw [h]; exact hv
      · exact hnone _ h
    | setNSamplesPerRank k =>
      rcases setNSamples_cases n v (k * n) with h | ⟨h, _⟩
      · simp only [MC.apply, MC.setNSamplesPerRank]; rw [h]; exact hv
      · exact hnone _ h
    | setChainLength k =>
      rcases setChainLength_cases n v k with h | ⟨h, _⟩
      · simp only [MC.apply]; rw [h]; exact hv
      · exact hnone _ h
    | setNDiscard d =>
      have : (v.setNDiscard d).1.samples = v.samples ∧ (v.setNDiscard d).1.vars = v.vars ∧
          (v.setNDiscard d).1.sampler = v.sampler ∧ (v.setNDiscard d).1.chainLength = v.chainLength := by
        unfold MC.setNDiscard; split <;> exact ⟨rfl, rfl, rfl, rfl⟩
      intro x hx
      simp only [MC.apply] at hx ⊢
      rw [this.1] at hx
      rw [this.2.2.2]
      exact drawn_congr v _ this.2.1 this.2.2.1 _ _ (hv x hx)
    | reset => exact hnone _ rfl
    | sample l k d => obtain ⟨rfl, rfl⟩ := hp; exact hsample d
    | getSamples =>
      simp only [MC.apply, MC.getSamples]
      split
      · exact hv
      · exact hsample none

/-- In general the cached samples need not have the current chain length: `sample(chain_length=…)`
    overwrites the cache. -/
theorem C120_length_refuted :
    ¬ ∀ (n : Nat) (s : Sampler (Nat × Nat) Unit Nat (List Nat)) (v : MC Nat Nat Unit Nat (List Nat))
      (ops : List (Op Nat Nat Unit Nat (List Nat))), MC.make n (7, 0) s () (some 10) none none = .ok v →
      ∀ x, ((ops.foldl (MC.apply n) v).getSamples n).2 = .ok x →
        Drawn (ops.foldl (MC.apply n) v) (ops.foldl (MC.apply n) v).chainLength x := by
  intro h
  rcases hm : toyMC 1 2 false with e | v
  · have : (match toyMC 1 2 false with | .ok _ => true | .error _ => false) = true := by decide +kernel
    rw [hm] at this; simp at this
  · have hs := (make_valid 1 (7, 0) (toy 2 false) () (some 10) none none v hm)
    have hcl : (match toyMC 1 2 false with
        | .ok v => decide (v.chainLength = 5) | .error _ => false) = true := by decide +kernel
    rw [hm] at hcl
    simp only [decide_eq_true_eq] at hcl
    have hlen : ∀ (w : MC Nat Nat Unit Nat (List Nat)) l x, w.sampler = toy 2 false → Drawn w l x →
        x.length = l := by
      rintro w l x hw ⟨st, h | ⟨d, h⟩⟩ <;> rw [h, hw] <;> simp [toy]
    rcases sample_spec 1 v (some 3) none none with ⟨e, _, h1⟩ | ⟨len, x, h1, _, h2, _, h4, h6, h5⟩
    · simp [MC.resolveLength] at h1
    · simp only [MC.resolveLength, Except.ok.injEq] at h1
      have hx : ((([Op.sample (some 3) none none].foldl (MC.apply 1) v)).getSamples 1).2 = .ok x := by
        simp only [List.foldl, MC.apply, MC.getSamples, h2]
      have := h 1 (toy 2 false) v [Op.sample (some 3) none none] hm x hx
      have e1 := hlen _ _ _ (by simp only [List.foldl, MC.apply]; rw [h4, hs.2.2]) this
      have e2 := hlen _ _ _ hs.2.2 h5
      simp only [List.foldl, MC.apply] at e1
      rw [h6, hcl] at e1
      omega

/-- changing the number of discarded samples does not drop the cache either. -/
theorem C120_discard_keeps_cache (v : MC P M Sd S X) (d : Option Int) :
    (v.setNDiscard d).1.samples = v.samples := by
  unfold MC.setNDiscard; split <;> rfl

/-! ### consistency of the numbers (C48 again) -/

/-- `n_samples` is the chain length times the number of chains of the current sampler, and an exact
    sampler discards nothing. -/
def Consistent (n : Nat) (v : MC P M Sd S X) : Prop :=
  v.nSamples = v.chainLength * v.sampler.nChains n ∧
  v.nPerNode = v.chainLength * v.sampler.nChainsPerRank ∧ (v.sampler.isExact = true → v.nDiscard = 0)

theorem setNSamples_consistent (n : Nat) (v : MC P M Sd S X) (h : Consistent n v) (k : Int) :
    Consistent n (v.setNSamples n k).1 := by
  unfold MC.setNSamples
  split
  · exact h
  · exact ⟨rfl, rfl, h.2.2⟩

/-- every call except the assignment of a new sampler keeps the numbers consistent. -/
theorem C48_consistent (n : Nat) (v : MC P M Sd S X) (h : Consistent n v)
    (ops : List (Op P M Sd S X)) (hops : ∀ op ∈ ops, ∀ s, op ≠ .setSampler s) :
    Consistent n (ops.foldl (MC.apply n) v) := by
  induction ops generalizing v with
  | nil => exact h
  | cons op ops ih =>
    refine ih _ ?_ fun o ho => hops o (List.mem_cons_of_mem _ ho)
    have hp := hops op List.mem_cons_self
    have hsample : ∀ l k d, Consistent n (v.sample n l k d).1 := by
      intro l k d
      unfold MC.sample
      split
      · exact h
      · exact h
    cases op with
    | setParams p => exact h
    | setMState m => exact h
    | setVars w => exact h
    | setSampler s => exact absurd rfl (hp s)
    | setSamplerState s => exact h
    | setNSamples k => exact setNSamples_consistent n v h k
    | setNSamplesPerRank k => exact setNSamples_consistent n v h _
    | setChainLength k =>
      simp only [MC.apply, MC.setChainLength]
      have hc := setNSamples_consistent n v h (k * v.sampler.nChains n * n)
      rcases hs : v.setNSamples n (k * v.sampler.nChains n * n) with ⟨w, e⟩
      rw [hs] at hc
      rcases e with _ | e <;> exact hc
    | setNDiscard d =>
      simp only [MC.apply, MC.setNDiscard]
      split
      · exact h
      · refine ⟨h.1, h.2.1, ?_⟩
        intro he
        simp only at he
        simp [he]
    | reset => exact h
    | sample l k d => exact hsample l k d
    | getSamples =>
      simp only [MC.apply, MC.getSamples]
      split
      · exact h
      · exact hsample none none none

/-- assigning a sampler with another number of chains keeps the old chain length and number of samples,
    which then disagree. -/
theorem C120_sampler_setter_refuted :
    ¬ ∀ (n : Nat) (v : MC Nat Nat Unit Nat (List Nat)) (op : Op Nat Nat Unit Nat (List Nat)),
      Consistent n v → Consistent n (v.apply n op) := by
  intro h
  have h0 : Consistent 1 (⟨7, 0, toy 2 false, (), 0, 10, 5, 10, 1, none⟩ :
      MC Nat Nat Unit Nat (List Nat)) := ⟨rfl, rfl, by simp [toy]⟩
  have := (h 1 _ (.setSampler (toy 3 false)) h0).1
  simp [MC.apply, MC.setSampler, MC.reset, toy, Sampler.nChains] at this

/-- the constructor returns a consistent state. -/
theorem C48_make_consistent (n : Nat) (vars : P × M) (s : Sampler (P × M) Sd S X) (seed : Sd)
    (a b d : Option Int) (v : MC P M Sd S X) (h : MC.make n vars s seed a b d = .ok v) :
    Consistent n v := by
  have hd : ∀ w w' : MC P M Sd S X, w.nSamples = w.chainLength * w.sampler.nChains n →
      w.nPerNode = w.chainLength * w.sampler.nChainsPerRank → w.setNDiscard d = (w', none) →
      Consistent n w' := by
    intro w w' h1 h2 hw
    unfold MC.setNDiscard at hw
    split at hw
    · simp at hw
    · simp only [Prod.mk.injEq, and_true] at hw
      rw [← hw]
      refine ⟨h1, h2, fun he => ?_⟩
      simp only at he
      simp [he]
  have hn : ∀ w : MC P M Sd S X, ∀ k w', w.setNSamples n k = (w', none) →
      w'.nSamples = w'.chainLength * w'.sampler.nChains n ∧
      w'.nPerNode = w'.chainLength * w'.sampler.nChainsPerRank := by
    intro w k w' hw
    unfold MC.setNSamples at hw
    split at hw
    · simp at hw
    · simp only [Prod.mk.injEq, and_true] at hw
      rw [← hw]
      exact ⟨rfl, rfl⟩
  unfold MC.make at h
  split at h
  · exact absurd h (by simp)
  · simp only at h
    split at h
    · exact absurd h (by simp)
    · rename_i w hw
      split at h
      · exact absurd h (by simp)
      · rename_i w' hw'
        simp only [Except.ok.injEq] at h
        subst h
        have : w.nSamples = w.chainLength * w.sampler.nChains n ∧
            w.nPerNode = w.chainLength * w.sampler.nChainsPerRank := by
          split at hw
          · exact hn _ _ _ hw
          · exact hn _ _ _ hw
        exact hd w _ this.1 this.2 hw'

/-! ### C60 -/

/-- what `sample` has to do: reset, draw `d` samples per chain that are thrown away, draw `l`. -/
def sampleSpec (v : MC P M Sd S X) (l d : Nat) : X × S :=
  v.sampler.chain v.vars (v.sampler.chain v.vars (v.sampler.reset v.vars v.samplerState) d).2 l

/-- with a positive stored number of discarded samples, `sample` honours both arguments. -/
theorem C60_sample_partial (n : Nat) (v : MC P M Sd S X) (hd : 0 < v.nDiscard) (l d : Option Nat) :
    v.sample n l none d =
      ({ v with samplerState := (sampleSpec v (l.getD v.chainLength) (d.getD v.nDiscard)).2,
                samples := some (sampleSpec v (l.getD v.chainLength) (d.getD v.nDiscard)).1 },
        .ok (sampleSpec v (l.getD v.chainLength) (d.getD v.nDiscard)).1) := by
  unfold MC.sample
  rcases l with _ | l <;> simp [MC.resolveLength, hd, sampleSpec]

/-- also without stored number of discarded samples, if none are requested and a chain of length zero
    leaves the sampler state alone. -/
theorem C60_sample_zero_partial (n : Nat) (v : MC P M Sd S X) (hd : v.nDiscard = 0)
    (hz : ∀ w s, (v.sampler.chain w s 0).2 = s) (l d : Option Nat) (hd' : d.getD 0 = 0) :
    (v.sample n l none d).2 = .ok (sampleSpec v (l.getD v.chainLength) 0).1 ∧
    (v.sample n l none d).1.samplerState = (sampleSpec v (l.getD v.chainLength) 0).2 := by
  unfold MC.sample
  rcases l with _ | l <;> simp [MC.resolveLength, hd, sampleSpec, hz]

/-- `n_samples` is rounded up to full chains and takes second place to `chain_length`. -/
theorem C60_length (n : Nat) (v : MC P M Sd S X) (hc : 0 < v.sampler.nChains n) (k : Int) (hk : 0 < k) :
    (∃ l, v.resolveLength n none (some k) = .ok l ∧ k ≤ (l * v.sampler.nChains n : Nat) ∧
      ∀ m : Nat, k ≤ (m * v.sampler.nChains n : Nat) → l ≤ m) ∧
    ∀ l, v.resolveLength n (some l) (some k) = .ok l := by
  constructor
  · have hpos := ceilDiv_pos k _ hc hk
    refine ⟨(ceilDiv k (v.sampler.nChains n)).toNat, ?_, ?_, ?_⟩
    · simp only [MC.resolveLength, computeChainLength]
      rw [if_neg (by omega), if_neg (by omega)]
    · have := le_ceilDiv_mul k _ hc
      push_cast
      rw [Int.toNat_of_nonneg hpos.le]
      exact this
    · intro m hm
      have := (ceilDiv_le_iff k _ hc m).2 (by push_cast at hm; exact hm)
      omega
  · intro l; rfl

/-- The full claim is false: if the stored number is zero, an explicit `n_discard_per_chain` is ignored. -/
theorem C60_sample_refuted :
    ¬ ∀ (n : Nat) (v : MC Nat Nat Unit Nat (List Nat)) (l d : Nat),
      (v.sample n (some l) none (some d)).2 = .ok (sampleSpec v l d).1 := by
  intro h
  have := h 1 ⟨7, 0, toy 2 true, (), 0, 10, 5, 10, 0, none⟩ 1 4
  simp [MC.sample, MC.resolveLength, sampleSpec, toy] at this

/-- the number of discarded samples: as given if not negative (0 for exact samplers), a tenth of the
    number of samples by default. -/
theorem C60_n_discard (v : MC P M Sd S X) (d : Nat) :
    (v.sampler.isExact = false → (v.setNDiscard (some d)) = ({ v with nDiscard := d }, none)) ∧
    (v.sampler.isExact = false → (v.setNDiscard none) = ({ v with nDiscard := v.nSamples / 10 }, none)) ∧
    (v.sampler.isExact = true → (v.setNDiscard (some d)) = ({ v with nDiscard := 0 }, none)) ∧
    (v.setNDiscard (some (-(d : Int) - 1))) = (v, some .valueError) := by
  refine ⟨fun h => ?_, fun h => ?_, fun h => ?_, ?_⟩
  · simp [MC.setNDiscard, h]
  · simp [MC.setNDiscard, h]
  · simp [MC.setNDiscard, h]
  · unfold MC.setNDiscard
    rw [if_pos (by simp; omega)]

/-! ### C58 -/

/-- Restoring a serialised consistent state into a state with the same sampler reproduces it; no samples
    are cached. -/
theorem C58_restore_partial (n : Nat) (v w : MC P M Sd S X) (hs : w.sampler = v.sampler)
    (hv : Consistent n v) (hc : 0 < v.sampler.nChains n) (hl : 0 < v.chainLength) :
    w.deserialize n v.serialize = .ok { v with samples := none, seed := w.seed } := by
  have hpos : 0 < v.nSamples := by rw [hv.1]; exact Nat.mul_pos hl hc
  let w1 : MC P M Sd S X := { (w.reset.setVars v.serialize.vars) with samplerState := v.samplerState }
  have hw1 : w1.sampler = v.sampler := hs
  obtain ⟨u, hu, h1, h2, h3, _⟩ := C48_samples n w1 (by rw [hw1]; exact hc) v.nSamples
    (by exact_mod_cast hpos)
  have hcl : u.chainLength = v.chainLength := by
    refine le_antisymm (h3 _ (by rw [hw1, hv.1])) ?_
    rw [h1, hw1, hv.1] at h2
    exact Nat.le_of_mul_le_mul_right (by exact_mod_cast h2) hc
  have hce : computeChainLength (v.sampler.nChains n) v.nSamples = .ok v.chainLength := by
    rcases he : computeChainLength (w1.sampler.nChains n) v.nSamples with e | l
    · rw [MC.setNSamples, he] at hu; simp at hu
    · rw [MC.setNSamples, he] at hu
      simp only [Prod.mk.injEq, and_true] at hu
      rw [← hw1, he, ← hcl, ← hu]
      rfl
  have he : w1.setNSamples n v.nSamples = (({ w1 with
      nSamples := v.chainLength * w1.sampler.nChains n, chainLength := v.chainLength,
      nPerNode := v.chainLength * w1.sampler.nChainsPerRank }).reset, none) := by
    rw [MC.setNSamples, hw1, hce]
  have hdes : w.deserialize n v.serialize = (match w1.setNSamples n (v.nSamples : Int) with
      | (_, some e) => .error e
      | (w, none) =>
        match w.setNDiscard (some (v.nDiscard : Int)) with
        | (_, some e) => .error e
        | (w, none) => .ok w) := rfl
  rw [hdes, he]
  have hd : ∀ u : MC P M Sd S X, u.sampler = v.sampler →
      u.setNDiscard (some (v.nDiscard : Int)) = ({ u with nDiscard := v.nDiscard }, none) := by
    intro u hu
    unfold MC.setNDiscard
    rw [if_neg (by simp), hu]
    by_cases h : v.sampler.isExact = true
    · simp [h, hv.2.2 h]
    · simp [h]
  simp only
  rw [hd _ (by exact hw1)]
  simp only [MC.reset, hw1, ← hv.1, ← hv.2.1]
  rfl

/-- the numbers are not reproduced after a change of sampler: the number of samples is rounded again. -/
theorem C58_restore_refuted :
    ¬ ∀ (n : Nat) (v w : MC Nat Nat Unit Nat (List Nat)) (s : Sampler (Nat × Nat) Unit Nat (List Nat)),
      Consistent n v → 0 < s.nChainsPerRank → w.sampler = s →
      ∀ r, w.deserialize n (v.setSampler s).serialize = .ok r → r.nSamples = v.nSamples := by
  intro h
  have h0 : Consistent 1 (⟨7, 0, toy 2 false, (), 0, 10, 5, 10, 1, none⟩ :
      MC Nat Nat Unit Nat (List Nat)) := ⟨rfl, rfl, by simp [toy]⟩
  have := h 1 ⟨7, 0, toy 2 false, (), 0, 10, 5, 10, 1, none⟩
    ⟨7, 0, toy 3 false, (), 0, 12, 4, 12, 1, none⟩ (toy 3 false) h0 (by decide) rfl
    ⟨7, 0, toy 3 false, (), 0, 12, 4, 12, 1, none⟩ (by rfl)
  simp at this

/-! ### C57 -/

/-- the diagonal has the same parameters and model state. -/
def Synced (v : Mixed P M Sd S X) : Prop := v.diag.params = v.main.params ∧ v.diag.mstate = v.main.mstate

theorem apply_vars (n : Nat) (v : MC P M Sd S X) :
    (∀ k, (v.setNSamples n k).1.params = v.params ∧ (v.setNSamples n k).1.mstate = v.mstate) ∧
    (∀ k, (v.setChainLength n k).1.params = v.params ∧ (v.setChainLength n k).1.mstate = v.mstate) ∧
    (∀ d, (v.setNDiscard d).1.params = v.params ∧ (v.setNDiscard d).1.mstate = v.mstate) ∧
    (∀ l k d, (v.sample n l k d).1.params = v.params ∧ (v.sample n l k d).1.mstate = v.mstate) ∧
    ((v.getSamples n).1.params = v.params ∧ (v.getSamples n).1.mstate = v.mstate) := by
  have hN : ∀ k, (v.setNSamples n k).1.params = v.params ∧ (v.setNSamples n k).1.mstate = v.mstate := by
    intro k; unfold MC.setNSamples; split <;> exact ⟨rfl, rfl⟩
  have hS : ∀ l k d, (v.sample n l k d).1.params = v.params ∧ (v.sample n l k d).1.mstate = v.mstate := by
    intro l k d; unfold MC.sample; split <;> exact ⟨rfl, rfl⟩
  refine ⟨hN, ?_, ?_, hS, ?_⟩
  · intro k
    unfold MC.setChainLength
    have := hN (k * v.sampler.nChains n * n)
    rcases hs : v.setNSamples n (k * v.sampler.nChains n * n) with ⟨w, e⟩
    rw [hs] at this
    rcases e with _ | e <;> exact this
  · intro d; unfold MC.setNDiscard; split <;> exact ⟨rfl, rfl⟩
  · unfold MC.getSamples; split
    · exact ⟨rfl, rfl⟩
    · exact hS none none none

theorem C57_step (n : Nat) (v : Mixed P M Sd S X) (h : Synced v) (op : MixedOp P M Sd S X) :
    Synced (v.apply n op) := by
  have hm := apply_vars n v.main
  have hd := apply_vars n v.diag
  obtain ⟨h1, h2⟩ := h
  cases op with
  | main op =>
    cases op with
    | setParams p => exact ⟨rfl, h2⟩
    | setMState m => exact ⟨h1, rfl⟩
    | setVars w => exact ⟨rfl, rfl⟩
    | setSampler s => exact ⟨h1, h2⟩
    | setSamplerState s => exact ⟨h1, h2⟩
    | setNSamples k =>
      have := hm.1 k
      simp only [Mixed.apply, Mixed.onMain]
      rcases hs : v.main.setNSamples n k with ⟨w, e⟩
      rw [hs] at this
      rcases e with _ | e <;> exact ⟨h1.trans this.1.symm, h2.trans this.2.symm⟩
    | setNSamplesPerRank k =>
      have := hm.1 (k * n)
      simp only [Mixed.apply, Mixed.onMain, MC.setNSamplesPerRank]
      rcases hs : v.main.setNSamples n (k * n) with ⟨w, e⟩
      rw [hs] at this
      rcases e with _ | e <;> exact ⟨h1.trans this.1.symm, h2.trans this.2.symm⟩
    | setChainLength k =>
      have := hm.2.1 k
      simp only [Mixed.apply, Mixed.onMain]
      rcases hs : v.main.setChainLength n k with ⟨w, e⟩
      rw [hs] at this
      rcases e with _ | e <;> exact ⟨h1.trans this.1.symm, h2.trans this.2.symm⟩
    | setNDiscard d =>
      have := hm.2.2.1 d
      exact ⟨h1.trans this.1.symm, h2.trans this.2.symm⟩
    | reset => exact ⟨h1, h2⟩
    | sample l k d =>
      have := hm.2.2.2.1 l k d
      exact ⟨h1.trans this.1.symm, h2.trans this.2.symm⟩
    | getSamples =>
      have := hm.2.2.2.2
      exact ⟨h1.trans this.1.symm, h2.trans this.2.symm⟩
  | samplerDiag s => exact ⟨h1, h2⟩
  | nSamplesDiag k => exact ⟨(hd.1 k).1.trans h1, (hd.1 k).2.trans h2⟩
  | chainLengthDiag k => exact ⟨(hd.2.1 k).1.trans h1, (hd.2.1 k).2.trans h2⟩
  | nDiscardDiag d => exact ⟨(hd.2.2.1 d).1.trans h1, (hd.2.2.1 d).2.trans h2⟩
  | sampleDiag l k d => exact ⟨(hd.2.2.2.1 l k d).1.trans h1, (hd.2.2.2.1 l k d).2.trans h2⟩
  | samplesDiag => exact ⟨hd.2.2.2.2.1.trans h1, hd.2.2.2.2.2.trans h2⟩

/-- From the constructor on, after every sequence of calls, the diagonal state holds the parameters and
    model state of the mixed state. -/
theorem C57_synced (n : Nat) (applyFun : Bool) (vars : P × M) (s sd : Sampler (P × M) Sd S X)
    (seed seedDiag : Sd) (a b d a' b' d' : Option Int) (v : Mixed P M Sd S X)
    (h : Mixed.make n applyFun vars s sd seed seedDiag a b d a' b' d' = .ok v)
    (ops : List (MixedOp P M Sd S X)) :
    (ops.foldl (Mixed.apply n) v).diag.vars = (ops.foldl (Mixed.apply n) v).main.vars := by
  have h0 : Synced v := by
    unfold Mixed.make at h
    split at h
    · exact absurd h (by simp)
    · split at h
      · exact absurd h (by simp)
      · split at h
        · exact absurd h (by simp)
        · rename_i m hm _ _ dg hd
          simp only [Except.ok.injEq] at h
          subst h
          have := (make_valid n _ _ _ _ _ _ _ hd).2.1
          simp only [MC.vars, Prod.mk.injEq] at this
          exact this
  have : Synced (ops.foldl (Mixed.apply n) v) := by
    clear h
    induction ops generalizing v with
    | nil => exact h0
    | cons op ops ih => exact ih _ (C57_step n v h0 op)
  exact Prod.ext this.1 this.2

/-- what is assigned is what both hold. -/
theorem C57_assign (v : Mixed P M Sd S X) (w : P × M) :
    (v.setVars w).main.vars = w ∧ (v.setVars w).diag.vars = w ∧ (v.setVars w).main.samples = none ∧
    (v.setVars w).diag.samples = none ∧ (v.setParams w.1).main.params = w.1 ∧
    (v.setParams w.1).diag.params = w.1 ∧ (v.setParams w.1).main.mstate = v.main.mstate :=
  ⟨rfl, rfl, rfl, rfl, rfl, rfl, rfl⟩

/-- cached samples of the diagonal are dropped with those of the mixed state (C56 for mixed states). -/
theorem C56_mixed_valid (n : Nat) (v : Mixed P M Sd S X) (h1 : Valid v.main) (h2 : Valid v.diag)
    (ops : List (MixedOp P M Sd S X)) :
    Valid (ops.foldl (Mixed.apply n) v).main ∧ Valid (ops.foldl (Mixed.apply n) v).diag := by
  induction ops generalizing v with
  | nil => exact ⟨h1, h2⟩
  | cons op ops ih =>
    refine ih _ ?_ ?_
    · cases op with
      | main op =>
        have := C56_valid_step n v.main h1 op
        cases op with
        | setParams p => exact valid_none _ rfl
        | setMState m => exact valid_none _ rfl
        | setVars w => exact valid_none _ rfl
        | setSampler s => exact valid_none _ rfl
        | setNSamples k =>
          simp only [Mixed.apply, Mixed.onMain]
          simp only [MC.apply] at this
          rcases hs : v.main.setNSamples n k with ⟨w, e⟩
          rw [hs] at this
          rcases e with _ | e <;> exact this
        | setNSamplesPerRank k =>
          simp only [Mixed.apply, Mixed.onMain]
          simp only [MC.apply] at this
          rcases hs : v.main.setNSamplesPerRank n k with ⟨w, e⟩
          rw [hs] at this
          rcases e with _ | e <;> exact this
        | setChainLength k =>
          simp only [Mixed.apply, Mixed.onMain]
          simp only [MC.apply] at this
          rcases hs : v.main.setChainLength n k with ⟨w, e⟩
          rw [hs] at this
          rcases e with _ | e <;> exact this
        | setSamplerState s => exact this
        | setNDiscard d => exact this
        | reset => exact valid_none _ rfl
        | sample l k d => exact this
        | getSamples => exact this
      | _ => exact h1
    · cases op with
      | main op =>
        cases op with
        | setNSamples k =>
          simp only [Mixed.apply, Mixed.onMain]
          split
          · exact valid_none _ rfl
          · exact h2
        | setNSamplesPerRank k =>
          simp only [Mixed.apply, Mixed.onMain]
          split
          · exact valid_none _ rfl
          · exact h2
        | setChainLength k =>
          simp only [Mixed.apply, Mixed.onMain]
          split
          · exact valid_none _ rfl
          · exact h2
        | setParams p => exact valid_none _ rfl
        | setMState m => exact valid_none _ rfl
        | setVars w => exact valid_none _ rfl
        | setSampler s => exact valid_none _ rfl
        | reset => exact valid_none _ rfl
        | _ => exact h2
      | samplerDiag s => exact C56_valid_step n v.diag h2 (.setSampler s)
      | nSamplesDiag k => exact C56_valid_step n v.diag h2 (.setNSamples k)
      | chainLengthDiag k => exact C56_valid_step n v.diag h2 (.setChainLength k)
      | nDiscardDiag d => exact C56_valid_step n v.diag h2 (.setNDiscard d)
      | sampleDiag l k d => exact C56_valid_step n v.diag h2 (.sample l k d)
      | samplesDiag => exact C56_valid_step n v.diag h2 .getSamples

/-! ### C58 for mixed states -/

/-- restoring a mixed state into a copy of itself reproduces both parts. -/
theorem C58_mixed_restore_partial (n : Nat) (v w : Mixed P M Sd S X) (hs : w.main.sampler = v.main.sampler)
    (hsd : w.diag.sampler = v.diag.sampler) (hv : Consistent n v.main) (hvd : Consistent n v.diag)
    (hc : 0 < v.main.sampler.nChains n) (hl : 0 < v.main.chainLength)
    (hcd : 0 < v.diag.sampler.nChains n) (hld : 0 < v.diag.chainLength) (hsync : Synced v) :
    (w.deserialize n v.serialize).2 = .ok ⟨{ v.main with samples := none, seed := w.main.seed },
      { v.diag with samples := none, seed := w.diag.seed }⟩ := by
  have hd := C58_restore_partial n v.diag w.diag.reset hsd hvd hcd hld
  have hm := C58_restore_partial n v.main w.main hs hv hc hl
  unfold Mixed.deserialize
  simp only [Mixed.serialize]
  rw [hd]
  simp only
  unfold MC.deserialize at hm
  have e1 : ({ (Mixed.setVars (⟨w.main.reset, { v.diag with samples := none, seed := w.diag.reset.seed }⟩ :
      Mixed P M Sd S X) v.main.serialize.vars).main with samplerState := v.main.serialize.samplerState } :
      MC P M Sd S X) = { (w.main.reset.setVars v.main.serialize.vars) with
        samplerState := v.main.serialize.samplerState } := rfl
  rw [e1]
  simp only at hm
  rcases h1 : ({ (w.main.reset.setVars v.main.serialize.vars) with
        samplerState := v.main.serialize.samplerState } : MC P M Sd S X).setNSamples n
        v.main.serialize.nSamples with ⟨u, e⟩
  rw [h1] at hm
  rcases e with _ | e
  · simp only at hm ⊢
    rcases h2 : u.setNDiscard (some (v.main.serialize.nDiscard : Int)) with ⟨u', e'⟩
    rw [h2] at hm
    rcases e' with _ | e'
    · simp only [Except.ok.injEq] at hm ⊢
      rw [hm]
      obtain ⟨hp, hms⟩ := hsync
      simp only [Mixed.mk.injEq, true_and, Mixed.setVars, Mixed.setMState, Mixed.setParams, Mixed.reset,
        MC.setParams, MC.setMState, MC.reset, MC.serialize, MC.vars]
      rw [← hp, ← hms]
    · simp at hm
  · simp at hm

/-- Restoring drops the cached samples of the diagonal of the *original* object, which is shared with
    the shallow copy while that one is reset. -/
theorem C58_mixed_original_refuted :
    ¬ ∀ (n : Nat) (v : Mixed Nat Nat Unit Nat (List Nat)) (d : MixedDict Nat Nat Nat),
      (v.deserialize n d).1 = v := by
  intro h
  have := h 1 ⟨⟨7, 0, toy 2 false, (), 0, 10, 5, 10, 1, none⟩, ⟨7, 0, toy 2 false, (), 0, 10, 5, 10, 1, some [1]⟩⟩
    ⟨⟨(7, 0), 0, 10, 1⟩, ⟨(7, 0), 0, 10, 1⟩⟩
  have := congrArg (fun v => v.diag.samples) this
  revert this
  decide +kernel

/-- nothing else of the original changes. -/
theorem C58_mixed_original_partial (n : Nat) (v : Mixed P M Sd S X) (d : MixedDict P M S) :
    (v.deserialize n d).1 = ⟨v.main, { v.diag with samples := none }⟩ := by
  unfold Mixed.deserialize
  simp only
  split
  · rfl
  · split
    · rfl
    · split <;> rfl

/-! ### C80: construction of mixed states -/

/-- `n_samples_per_rank`, a documented argument, cannot be given: the constructor raises a TypeError. -/
theorem C80_per_rank_refuted :
    ¬ ∀ (n : Nat) (vars : Nat × Nat) (s sd : Sampler (Nat × Nat) Unit Nat (List Nat)) (k : Nat), 0 < n →
      0 < k → 0 < s.nChainsPerRank → 0 < sd.nChainsPerRank →
      ∃ v, Mixed.make n false vars s sd () () none (some k) none none none none = .ok v := by
  intro h
  obtain ⟨v, hv⟩ := h 1 (7, 0) (toy 2 false) (toy 2 false) 10 (by decide) (by decide) (by decide)
    (by decide)
  have hw : (match Mixed.make 1 false (7, 0) (toy 2 false) (toy 2 false) () () none (some (10 : Nat)) none
      none none none with
    | .ok _ => false | .error e => decide (e = .typeError)) = true := by decide +kernel
  rw [hv] at hw
  simp at hw

/-- nor can `apply_fun`. -/
theorem C80_apply_fun_refuted (n : Nat) (vars : P × M) (s sd : Sampler (P × M) Sd S X) (seed sdd : Sd)
    (a b d a' b' d' : Option Int) (v : Mixed P M Sd S X) :
    Mixed.make n true vars s sd seed sdd a b d a' b' d' ≠ .ok v := by
  unfold Mixed.make
  split
  · simp
  · simp

/-- With a model, `n_samples` and the arguments for the diagonal, construction succeeds; the diagonal is
    sampled with `machine_pow = 1`. -/
theorem C80_make_partial (n : Nat) (hn : 0 < n) (vars : P × M) (s sd : Sampler (P × M) Sd S X)
    (seed sdd : Sd) (k kd : Nat) (hk : 0 < k) (hkd : 0 < kd) (hs : 0 < s.nChainsPerRank)
    (hsd : 0 < sd.nChainsPerRank) (d dd : Option Nat) :
    ∃ v, Mixed.make n false vars s sd seed sdd (some k) none (d.map Int.ofNat) (some kd) none
        (dd.map Int.ofNat) = .ok v ∧ v.diag.sampler.machinePow = 1 ∧ v.main.sampler = s ∧
      (k : Int) ≤ v.main.nSamples ∧ (kd : Int) ≤ v.diag.nSamples := by
  have key : ∀ (vars : P × M) (s : Sampler (P × M) Sd S X) (seed : Sd) (k : Nat) (d : Option Nat), 0 < k →
      0 < s.nChainsPerRank → ∃ v, MC.make n vars s seed (some k) none (d.map Int.ofNat) = .ok v ∧
        (k : Int) ≤ v.nSamples := by
    intro vars s seed k d hk hs
    have hc : 0 < s.nChains n := Nat.mul_pos hs hn
    obtain ⟨w, hw, _, h2, _⟩ := C48_samples n
      (MC.setSampler ⟨vars.1, vars.2, s, seed, s.init vars seed, 0, 0, 0, 0, none⟩ s) hc k
      (by exact_mod_cast hk)
    unfold MC.make
    simp only [Option.getD_some]
    rw [hw]
    simp only
    unfold MC.setNDiscard
    rw [if_neg (by rcases d with _ | d <;> simp)]
    exact ⟨_, rfl, h2⟩
  obtain ⟨m, hm, h1⟩ := key vars s seed k d hk hs
  obtain ⟨dg, hdg, h2⟩ := key m.vars (diagSampler sd) sdd kd dd hkd hsd
  refine ⟨⟨m, dg⟩, ?_, ?_, (make_valid _ _ _ _ _ _ _ _ hm).2.2, h1, h2⟩
  · unfold Mixed.make
    rw [hm]
    simp only [Option.isSome_none, Bool.or_self, Bool.false_eq_true, if_false]
    rw [hdg]
  · rw [(make_valid _ _ _ _ _ _ _ _ hdg).2.2]; rfl

/-- but the setter `sampler_diag` does not set `machine_pow`, so that the diagonal may afterwards be
    sampled from `|ρ(σ,σ)|²` instead of `ρ(σ,σ)`. -/
theorem C80_sampler_diag_refuted :
    ¬ ∀ (n : Nat) (v : Mixed Nat Nat Unit Nat (List Nat)) (op : MixedOp Nat Nat Unit Nat (List Nat)),
      v.diag.sampler.machinePow = 1 → (v.apply n op).diag.sampler.machinePow = 1 := by
  intro h
  have := h 1 ⟨⟨7, 0, toy 2 false, (), 0, 10, 5, 10, 1, none⟩,
    ⟨7, 0, diagSampler (toy 2 false), (), 0, 10, 5, 10, 1, none⟩⟩ (.samplerDiag (toy 2 false)) rfl
  revert this
  decide +kernel

/-- a state built by the constructor, for the hypotheses above. -/
example : (match toyMC 2 3 false with
    | .ok v => decide (v.nSamples = 12 ∧ v.chainLength = 2 ∧ v.nPerNode = 6 ∧ v.nDiscard = 1)
    | .error _ => false) = true := by decide +kernel
example : (match toyMC 1 2 false with
    | .ok v => (match (v.sample 1 (some 2) none (some 4)).2 with
      | .ok x => decide (x = [7004, 7005]) | .error _ => false)
    | .error _ => false) = true := by decide +kernel
example : preInit 4 (some 10) none = .ok 3 := by decide +kernel

/-! cases for the hypotheses of the theorems above: states with two chains per rank on two ranks -/

/-- a state as the constructor leaves it: 12 samples in chains of length 3. -/
def exMC : MC Nat Nat Unit Nat (List Nat) := ⟨7, 0, toy 2 false, (), 0, 12, 3, 6, 1, none⟩

/-- the same with its diagonal. -/
def exMixed : Mixed Nat Nat Unit Nat (List Nat) := ⟨exMC, { exMC with sampler := diagSampler (toy 2 false) }⟩

theorem exMC_valid : Valid exMC := valid_none _ rfl

theorem exMC_consistent : Consistent 2 exMC := ⟨rfl, rfl, fun h => by cases h⟩

example := C48_samples 2 exMC (by decide) 11 (by decide)

example := C48_samples_invalid 2 exMC (-3) (by decide)

example := C48_per_rank_setter 2 (by decide) exMC (by decide) 5 (by decide)

example := C120_chain_length_partial exMC (by decide) 4 (by decide)

example := C120_per_rank_getter_iff 2 exMC rfl

example := C56_valid_step 2 exMC exMC_valid (.setParams 8)

example := C56_valid 2 exMC exMC_valid [.getSamples, .setParams 8, .getSamples, .setSampler (toy 1 false), .sample none (some 8) none]

example := C56_samples 2 (7, 0) (toy 2 false) () (some 10) none none _ rfl [.getSamples, .setParams 8] _ rfl _ rfl

example := C120_length_partial 2 exMC (fun _ h => by cases h) [.getSamples, .setParams 8, .sample none none (some 3)] (by
  intro op h
  simp only [List.mem_cons, List.not_mem_nil, or_false] at h
  rcases h with rfl | rfl | rfl <;> simp [Op.plain])

example := C48_consistent 2 exMC exMC_consistent [.setNSamples 9, .getSamples, .setChainLength 2] (by
  intro op h s
  simp only [List.mem_cons, List.not_mem_nil, or_false] at h
  rcases h with rfl | rfl | rfl <;> simp)

example := C48_make_consistent 2 (7, 0) (toy 2 false) () (some 10) none none _ rfl

example := C60_sample_partial 2 exMC (by decide) (some 4) none

example := C60_sample_zero_partial 2 { exMC with nDiscard := 0 } rfl (fun _ _ => rfl) (some 4) none rfl

example := C60_length 2 exMC (by decide) 7 (by decide)

example := C58_restore_partial 2 exMC { exMC with params := 1, samplerState := 5 } rfl exMC_consistent (by decide) (by decide)

example := C57_step 2 exMixed ⟨rfl, rfl⟩ (.main (.setParams 8))

example := C57_synced 2 false (7, 0) (toy 2 false) (toy 1 false) () () (some 10) none none (some 4) none none _ rfl
  [.main (.setParams 8), .samplesDiag]

example := C56_mixed_valid 2 exMixed exMC_valid (valid_none _ rfl) [.main (.setParams 8), .samplesDiag]

example := C58_mixed_restore_partial 2 exMixed { exMixed with main := { exMC with params := 1 } } rfl rfl exMC_consistent ⟨rfl, rfl, fun h => by cases h⟩
  (by decide) (by decide) (by decide) (by decide) ⟨rfl, rfl⟩

example := C80_make_partial 2 (by decide) (7, 0) (toy 2 false) (toy 1 false) () () 10 4 (by decide) (by decide) (by decide) (by decide) none (some 3)

end Verif.VState
