import Verif.Model.SamplerCtor
import Verif.Props.Metropolis
import Verif.Props.Rules
import Mathlib.Order.Bounds.Basic

/-! C189, C190: construction of samplers, samplers on several devices. -/

set_option linter.unusedSectionVars false
set_option linter.unusedVariables false

namespace Verif.SamplerCtor
open Verif.Hilbert (Err)
open Verif.VState (ceilDiv)

/-! ## Number of chains -/

theorem ceilDiv_le (a : ℤ) (b : ℕ) (hb : 0 < b) (k : ℤ) : ceilDiv a b ≤ k ↔ a ≤ k * b := by
  unfold ceilDiv
  have hb' : (0 : ℤ) < b := by exact_mod_cast hb
  rw [neg_le, Int.le_ediv_iff_mul_le hb']
  constructor <;> intro h <;> nlinarith

theorem least_chains (n : ℤ) (p : ℕ) (hp : 0 < p) : IsLeast {k : ℤ | 1 ≤ k ∧ n ≤ k * p} (max (ceilDiv n p) 1) := by
  constructor
  · exact ⟨le_max_right _ _, (ceilDiv_le n p hp _).1 (le_max_left _ _)⟩
  · rintro k ⟨h1, h2⟩
    exact max_le ((ceilDiv_le n p hp k).2 h2) h1

theorem postInit_ok {s s' : Smp} (h : postInit s = .ok s') : s'.hilbert = s.hilbert ∧ s'.nChainsPerRank = s.nChainsPerRank ∧ s'.machinePow = s.machinePow
    ∧ s'.dtype = s.dtype ∧ s'.rule = s.rule ∧ s'.resetChains = s.resetChains ∧ (∃ h, s.hilbert = .hil h ∧ s'.nSweeps = some (s.nSweeps.getD h.size))
    ∧ s.machinePow ≠ .other ∧ s.rule ≠ .noRule ∧ s.resetChains ≠ none := by
  unfold postInit basePostInit at h
  by_cases h1 : s.hilbert = .other
  · simp [h1] at h
  by_cases h2 : s.machinePow = .other
  · simp [h1, h2] at h
  by_cases h3 : s.rule = .noRule
  · simp [h1, h2, h3] at h
  by_cases h4 : s.resetChains = none
  · simp [h1, h2, h3, h4] at h
  simp only [h1, h2, h3, h4, if_false] at h
  cases hh : s.hilbert with
  | other => exact absurd hh h1
  | hil v =>
    cases hs : s.nSweeps with
    | none =>
      simp only [hh, hs, Except.ok.injEq] at h
      subst h
      simp_all
    | some w =>
      simp only [hh, hs, Except.ok.injEq] at h
      subst h
      simp_all

/-- the arguments are those of the constructor. -/
def Accepts (hilbert : HArg) (rule : Rule) (kw : Kw) : Prop :=
  kw.args = 0 ∧ kw.unknown = false ∧ kw.nChainsPerDevice = none ∧ (kw.nChainsPerRank.isSome → kw.nChains.getD none = none) ∧ (∃ h, hilbert = .hil h)
  ∧ (∃ k, kw.machinePow = .int k) ∧ rule ≠ .noRule ∧ (kw.resetChain.getD (kw.resetChains.getD (some false))).isSome

/-- C189: the constructors of Metropolis samplers succeed for exactly the documented arguments and set every field: the given ones, `n_sweeps` to the size of the
    space if not given, `n_chains_per_rank` to the smallest positive number with which all processes together have `n_chains` (16) chains. Process 0 warns if
    there are more. -/
theorem C189_constructor (p rank : ℕ) (hp : 0 < p) (hilbert : HArg) (rule : Rule) (kw : Kw) :
    (Accepts hilbert rule kw ↔ ∃ r, metropolis p rank hilbert rule kw = .ok r)
    ∧ ∀ s w, metropolis p rank hilbert rule kw = .ok (s, w) →
      s.hilbert = hilbert ∧ s.rule = rule ∧ s.machinePow = kw.machinePow ∧ s.dtype = kw.dtype ∧ s.resetChains = kw.resetChain.getD (kw.resetChains.getD (some false))
      ∧ (∃ h, hilbert = .hil h ∧ s.nSweeps = some (kw.nSweeps.getD h.size))
      ∧ (∀ k, kw.nChainsPerRank = some k → s.nChainsPerRank = k ∧ w = false)
      ∧ (kw.nChainsPerRank = none → ∃ k, s.nChainsPerRank = some k ∧ IsLeast {k : ℤ | 1 ≤ k ∧ (kw.nChains.getD none).getD 16 ≤ k * p} k
        ∧ nChains p s = .ok (k * p) ∧ (w = true ↔ 1 < p ∧ rank = 0 ∧ k * p ≠ (kw.nChains.getD none).getD 16)) := by
  constructor
  · constructor
    · rintro ⟨h1, h2, h3, h4, ⟨h, rfl⟩, ⟨k, h6⟩, h7, h8⟩
      unfold metropolis
      rw [if_neg (by simp [h1])]
      have hb : ∃ q, basePreInit p rank kw = .ok q := by
        unfold basePreInit
        cases hk : kw.nChainsPerRank with
        | none => exact ⟨_, rfl⟩
        | some v =>
          have := h4 (by simp [hk])
          exact ⟨_, by simp only [this]; rfl⟩
      obtain ⟨⟨q1, q2⟩, hq⟩ := hb
      rw [hq]
      simp only [h2, h3, Bool.false_eq_true, Option.isSome_none, or_self, if_false]
      obtain ⟨b, hb⟩ := Option.isSome_iff_exists.1 h8
      rw [hb]
      unfold postInit basePostInit
      cases hs : kw.nSweeps <;> simp [h6, h7, hs, Except.map]
    · rintro ⟨⟨s, w⟩, hr⟩
      unfold metropolis at hr
      by_cases h1 : kw.args ≠ 0
      · simp [h1] at hr
      rw [if_neg h1] at hr
      cases hb : basePreInit p rank kw with
      | error e => simp [hb] at hr
      | ok q =>
        obtain ⟨k, w'⟩ := q
        simp only [hb] at hr
        by_cases h2 : kw.unknown = true ∨ kw.nChainsPerDevice.isSome = true
        · simp [h2] at hr
        rw [if_neg h2] at hr
        cases hp' : postInit { hilbert := hilbert, nChainsPerRank := k, machinePow := kw.machinePow, dtype := kw.dtype, rule := rule, nSweeps := kw.nSweeps, resetChains := kw.resetChain.getD (kw.resetChains.getD (some false)) } with
        | error e => simp [hp', Except.map] at hr
        | ok s' =>
          obtain ⟨g1, g2, g3, g4, g5, g6, ⟨h, g7, g8⟩, g9, g10, g11⟩ := postInit_ok hp'
          push Not at h1 h2
          refine ⟨h1, by simpa using h2.1, by simpa using h2.2, ?_, ⟨h, g7⟩, ?_, g10, ?_⟩
          · intro hs
            obtain ⟨v, hv⟩ := Option.isSome_iff_exists.1 hs
            unfold basePreInit at hb
            rw [hv] at hb
            simp only at hb
            by_contra hc
            rw [if_pos (by simpa [Option.isSome_iff_ne_none] using hc)] at hb
            simp at hb
          · cases hm : kw.machinePow with
            | int m => exact ⟨m, rfl⟩
            | other => exact absurd hm g9
          · exact Option.isSome_iff_ne_none.2 g11
  · intro s w hr
    unfold metropolis at hr
    by_cases h1 : kw.args ≠ 0
    · simp [h1] at hr
    rw [if_neg h1] at hr
    cases hb : basePreInit p rank kw with
    | error e => simp [hb] at hr
    | ok q =>
      obtain ⟨k, w'⟩ := q
      simp only [hb] at hr
      by_cases h2 : kw.unknown = true ∨ kw.nChainsPerDevice.isSome = true
      · simp [h2] at hr
      rw [if_neg h2] at hr
      cases hp' : postInit { hilbert := hilbert, nChainsPerRank := k, machinePow := kw.machinePow, dtype := kw.dtype, rule := rule, nSweeps := kw.nSweeps, resetChains := kw.resetChain.getD (kw.resetChains.getD (some false)) } with
      | error e => simp [hp', Except.map] at hr
      | ok s' =>
        obtain ⟨g1, g2, g3, g4, g5, g6, ⟨h, g7, g8⟩, g9, g10, g11⟩ := postInit_ok hp'
        rw [hp'] at hr
        simp only [Except.map, Except.ok.injEq, Prod.mk.injEq] at hr
        obtain ⟨rfl, rfl⟩ := hr
        refine ⟨g1, g5, g3, g4, g6, ⟨h, g7, g8⟩, ?_, ?_⟩
        · intro v hv
          unfold basePreInit at hb
          rw [hv] at hb
          simp only at hb
          split at hb
          · simp at hb
          · simp only [Except.ok.injEq, Prod.mk.injEq] at hb
            exact ⟨g2.trans hb.1.symm, hb.2.symm⟩
        · intro hv
          unfold basePreInit at hb
          rw [hv] at hb
          simp only [Except.ok.injEq, Prod.mk.injEq] at hb
          obtain ⟨rfl, rfl⟩ := hb
          refine ⟨_, g2, least_chains _ p hp, ?_, ?_⟩
          · unfold nChains
            rw [g2]
          · simp

/-- C189: arguments that are refused, with the error. -/
theorem C189_errors (p rank : ℕ) (hilbert : HArg) (rule : Rule) (kw : Kw) :
    (kw.args ≠ 0 → metropolis p rank hilbert rule kw = .error .typeError)
    ∧ (kw.args = 0 → ∀ k n, kw.nChainsPerRank = some k → kw.nChains = some (some n) → metropolis p rank hilbert rule kw = .error .valueError)
    ∧ (kw.args = 0 → kw.nChainsPerRank = none → kw.unknown = true → metropolis p rank hilbert rule kw = .error .typeError)
    ∧ (kw.args = 0 → kw.nChainsPerRank = none → kw.unknown = false → kw.nChainsPerDevice = none →
      (hilbert = .other → metropolis p rank hilbert rule kw = .error .valueError)
      ∧ (hilbert ≠ .other → kw.machinePow = .other → metropolis p rank hilbert rule kw = .error .valueError)
      ∧ (hilbert ≠ .other → kw.machinePow ≠ .other → rule = .noRule → metropolis p rank hilbert rule kw = .error .typeError)) := by
  refine ⟨fun h => if_pos h, fun h k n hk hn => ?_, fun h hk hu => ?_, fun h hk hu hd => ⟨fun h1 => ?_, fun h1 h2 => ?_, fun h1 h2 h3 => ?_⟩⟩
  · unfold metropolis basePreInit
    simp [h, hk, hn]
  · unfold metropolis basePreInit
    simp [h, hk, hu]
  · unfold metropolis basePreInit postInit basePostInit
    simp [h, hk, hu, hd, h1, Except.map]
  · unfold metropolis basePreInit postInit basePostInit
    simp [h, hk, hu, hd, h1, h2, Except.map]
  · unfold metropolis basePreInit postInit basePostInit
    simp [h, hk, hu, hd, h1, h2, h3, Except.map]

/-- C189: the constructors for given rules. `MetropolisExchange` takes the pairs of sites of a graph at a distance of at most `d_max`, every pair once, or the given
    pairs; both or none is a ValueError. Something that is no operator is a TypeError, an operator on another space a ValueError of `init_state`. -/
theorem C189_rules (p rank : ℕ) (hilbert : HArg) (kw : Kw) (n dMax : ℕ) (dist : ℕ → ℕ → ℕ) (cl : List (ℤ × ℤ)) :
    (∃ c, exchangeRule none (some (n, dist)) dMax = .ok (.exchange c) ∧ c.Nodup ∧ ∀ a b, (a, b) ∈ c ↔ ∃ i j : ℕ, (a, b) = ((i : ℤ), (j : ℤ)) ∧ i < j ∧ j < n ∧ dist i j ≤ dMax)
    ∧ metropolisExchange p rank hilbert (some cl) none dMax kw = metropolis p rank hilbert (.exchange cl) kw
    ∧ metropolisExchange p rank hilbert none none dMax kw = .error .valueError
    ∧ metropolisExchange p rank hilbert (some cl) (some (n, dist)) dMax kw = .error .valueError
    ∧ metropolisHamiltonian p rank hilbert .other kw = .error .typeError ∧ metropolisHamiltonianNumpy p rank hilbert .other kw = .error .typeError
    ∧ ∀ (h : Hil) s w, (metropolisHamiltonian p rank hilbert (.op h) kw = .ok (s, w) ∨ metropolisHamiltonianNumpy p rank hilbert (.op h) kw = .ok (s, w)) → 0 < p →
      (ruleInit s = none ↔ hilbert = .hil h) ∧ (hilbert ≠ .hil h → ruleInit s = some .valueError) := by
  refine ⟨⟨_, rfl, ?_, ?_⟩, rfl, rfl, rfl, rfl, rfl, ?_⟩
  · refine List.Nodup.map ?_ (Metro.C45_clusters n dist dMax).2
    rintro ⟨a, b⟩ ⟨c, d⟩ h
    simpa using h
  · intro a b
    rw [List.mem_map]
    constructor
    · rintro ⟨⟨i, j⟩, h1, h2⟩
      exact ⟨i, j, h2.symm, (Metro.C45_clusters n dist dMax).1 i j |>.1 h1⟩
    · rintro ⟨i, j, h1, h2⟩
      exact ⟨(i, j), (Metro.C45_clusters n dist dMax).1 i j |>.2 h2, h1.symm⟩
  · rintro h s w (hs | hs) hp
    · obtain ⟨g1, g2, -⟩ := (C189_constructor p rank hp hilbert (.hamiltonian h) kw).2 s w hs
      unfold ruleInit
      rw [g2, g1]
      by_cases e : hilbert = .hil h <;> simp [e]
    · obtain ⟨g1, g2, -⟩ := (C189_constructor p rank hp hilbert (.hamiltonianNumpy h) kw).2 s w hs
      unfold ruleInit
      rw [g2, g1]
      by_cases e : hilbert = .hil h <;> simp [e]

/-- C189: `replace` with valid values changes the given fields only; without values it returns an equal sampler. -/
theorem C189_replace (p rank : ℕ) (hp : 0 < p) (hilbert : HArg) (rule : Rule) (kw : Kw) (s : Smp) (w : Bool) (hs : metropolis p rank hilbert rule kw = .ok (s, w)) :
    replace p rank s {} = .ok (s, false)
    ∧ (∀ h m d k n, replace p rank s { hilbert := some (.hil h), machinePow := some (.int m), dtype := some d, nChainsPerRank := some (some k), nSweeps := some (some n) }
      = .ok ({ s with hilbert := .hil h, machinePow := .int m, dtype := d, nChainsPerRank := some k, nSweeps := some n }, false))
    ∧ ∀ n u, u.nChains = some (some n) → replace p rank s u = .error .valueError := by
  obtain ⟨a1, a2, a3, a4, a5, a6, a7, a8⟩ := (C189_constructor p rank hp hilbert rule kw).1.2 ⟨_, hs⟩
  obtain ⟨b1, b2, b3, b4, b5, ⟨h, b6, b6'⟩, b7, b8⟩ := (C189_constructor p rank hp hilbert rule kw).2 s w hs
  obtain ⟨m, hm⟩ := a6
  obtain ⟨rc, hrc⟩ := Option.isSome_iff_exists.1 a8
  obtain ⟨hil, nch, pow, dt, ru, ns, rs⟩ := s
  simp only at b1 b2 b3 b4 b5 b6'
  subst b1 b2 b3 b4 b5 b6'
  subst b6
  refine ⟨?_, ?_, ?_⟩
  · simp [replace, metropolis, basePreInit, postInit, basePostInit, hm, a7, hrc, Except.map]
  · intros
    simp [replace, metropolis, basePreInit, postInit, basePostInit, a7, hrc, Except.map]
  · intro n u hu
    simp [replace, metropolis, basePreInit, hu]

/-! ## Samplers on several devices -/

/-- C189: chains of a sampler on `D` devices: the smallest positive number per device with which all devices of all processes together have `n_chains` chains; with
    `n_chains_per_device` that many; both is a ValueError. -/
theorem C189_pmap_chains (p rank D : ℕ) (hp : 0 < p) (hD : 0 < D) (hilbert : HArg) (rule : Rule) (kw : Kw) (s : Pmap) (w : Bool)
    (hs : pmap p rank D true hilbert rule kw = .ok (s, w)) :
    ∃ k, s.device.nChainsPerRank = some k ∧ s.main.nChainsPerRank = some (k * D) ∧ s.device.rule = rule ∧ s.main.rule = rule ∧ s.device.hilbert = hilbert ∧ s.main.hilbert = hilbert
      ∧ s.device.nSweeps = s.main.nSweeps ∧ s.device.machinePow = s.main.machinePow ∧ s.device.resetChains = s.main.resetChains
      ∧ (∀ d, kw.nChainsPerDevice = some d → k = d)
      ∧ (kw.nChainsPerDevice = none → kw.nChainsPerRank = none → IsLeast {k : ℤ | 1 ≤ k ∧ (kw.nChains.getD none).getD 16 ≤ k * D * p} k)
      ∧ (kw.nChainsPerDevice = none → ∀ n, kw.nChainsPerRank = some (some n) → IsLeast {k : ℤ | 1 ≤ k ∧ n ≤ k * D} k) := by
  have hD' : (D : ℤ) ≠ 0 := by exact_mod_cast hD.ne'
  unfold pmap at hs
  by_cases h1 : kw.args ≠ 0
  · simp [h1] at hs
  rw [if_neg h1] at hs
  cases hb : pmapPreInit p rank D kw with
  | error e => simp [hb] at hs
  | ok q =>
    obtain ⟨t, w'⟩ := q
    simp only [hb] at hs
    by_cases h2 : kw.unknown = true
    · simp [h2] at hs
    rw [if_neg h2] at hs
    have key : ∃ k, t = k * D ∧ (∀ d, kw.nChainsPerDevice = some d → k = d)
      ∧ (kw.nChainsPerDevice = none → kw.nChainsPerRank = none → IsLeast {k : ℤ | 1 ≤ k ∧ (kw.nChains.getD none).getD 16 ≤ k * D * p} k)
      ∧ (kw.nChainsPerDevice = none → ∀ n, kw.nChainsPerRank = some (some n) → IsLeast {k : ℤ | 1 ≤ k ∧ n ≤ k * D} k) := by
      unfold pmapPreInit at hb
      split at hb
      · simp at hb
      · cases hc : basePreInit p rank kw with
        | error e => simp [hc] at hb
        | ok r =>
          obtain ⟨k, w2⟩ := r
          simp only [hc] at hb
          cases hd : kw.nChainsPerDevice with
          | some d =>
            simp only [hd, Except.ok.injEq, Prod.mk.injEq] at hb
            exact ⟨d, hb.1.symm, by simp, by simp, by simp⟩
          | none =>
            cases k with
            | none => simp [hd] at hb
            | some k =>
              simp only [hd, Except.ok.injEq, Prod.mk.injEq] at hb
              refine ⟨_, hb.1.symm, by simp, fun _ hn => ?_, fun _ n hn => ?_⟩
              · unfold basePreInit at hc
                simp only [hn, Except.ok.injEq, Prod.mk.injEq, Option.some.injEq] at hc
                obtain ⟨l1, l2⟩ := least_chains ((kw.nChains.getD none).getD 16) p hp
                rw [hc.1] at l1 l2
                obtain ⟨m1, m2⟩ := least_chains k D hD
                have hp' : (0 : ℤ) < p := by exact_mod_cast hp
                have hDp : (0 : ℤ) < D := by exact_mod_cast hD
                refine ⟨⟨m1.1, le_trans l1.2 ?_⟩, ?_⟩
                · exact mul_le_mul_of_nonneg_right m1.2 hp'.le
                · rintro x ⟨x1, x2⟩
                  refine m2 ⟨x1, l2 ⟨?_, x2⟩⟩
                  nlinarith
              · unfold basePreInit at hc
                simp only [hn] at hc
                split at hc
                · simp at hc
                · simp only [Except.ok.injEq, Prod.mk.injEq, Option.some.injEq] at hc
                  rw [hc.1]
                  exact least_chains k D hD
    obtain ⟨k, rfl, k1, k2, k3⟩ := key
    cases hq : pmapPostInit p rank D true { hilbert := hilbert, nChainsPerRank := some (k * D), machinePow := kw.machinePow, dtype := kw.dtype, rule := rule, nSweeps := kw.nSweeps, resetChains := kw.resetChain.getD (kw.resetChains.getD (some false)) } with
    | error e =>
      rw [hq] at hs
      simp [Except.map] at hs
    | ok m =>
      rw [hq] at hs
      simp only [Except.map, Except.ok.injEq, Prod.mk.injEq] at hs
      obtain ⟨rfl, rfl⟩ := hs
      unfold pmapPostInit at hq
      simp only [Bool.not_true, Bool.false_eq_true, if_false] at hq
      split at hq
      · simp at hq
      rename_i s' hs'
      obtain ⟨g1, g2, g3, g4, g5, g6, ⟨h, g7, g8⟩, g9, g10, g11⟩ := postInit_ok hs'
      simp only at g1 g2 g3 g4 g5 g6 g7 g8
      rw [g2] at hq
      simp only at hq
      split at hq
      · simp at hq
      rename_i d w3 hd
      simp only [Except.ok.injEq] at hq
      subst hq
      obtain ⟨c1, c2, c3, c4, c5, ⟨h', c6, c6'⟩, c7, c8⟩ := (C189_constructor p rank hp _ _ _).2 d w3 hd
      have c9 := (c7 _ rfl).1
      rw [Int.mul_ediv_cancel _ hD'] at c9
      refine ⟨k, c9, g2, c2.trans g5, g5, c1.trans g1, g1, ?_, c3, ?_, k1, k2, k3⟩
      · rw [c6', g8]
        rfl
      · rw [c5]
        rfl

section
variable {X R K S : Type} [Field R] [LinearOrder R]
open Verif.Metro (sampleNext scanChain initState reset)

theorem scanChain_length {St A : Type} (next : St → St × A) (n : ℕ) : ∀ st, (scanChain next n st).1.length = n := by
  induction n with
  | zero => intro st; rfl
  | succ n ih => intro st; simp [scanChain, ih]

/-- C189: `sample` with chain length `n` is `n` times `sample_next`. -/
theorem C189_pmap_chain (s : Metro.Sampler X R K S) (n : ℕ) : ∀ sts, pmapChain s n sts = scanChain (pmapNext s) n sts := by
  induction n with
  | zero =>
    intro sts
    simp [pmapChain, scanChain]
  | succ n ih =>
    intro sts
    rw [scanChain, ← ih]
    unfold pmapChain pmapNext
    dsimp only
    refine Prod.ext ?_ ?_
    · dsimp only
      rw [List.range_succ_eq_map, List.map_cons]
      have e : ∀ (a b : List X) (l m : List (List X)), a = b → l = m → a :: l = b :: m := fun a b l m h1 h2 => by rw [h1, h2]
      refine e _ _ _ _ (by simp [scanChain, Function.comp_def]) ?_
      rw [List.map_map (l := List.range n)]
      refine List.map_congr_left fun t _ => ?_
      simp [scanChain, Function.comp_def]
    · simp [scanChain, Function.comp_def]

/-- C189: in every sequence of `reset` and `sample` calls every device runs its own sampler; call `i` returns at time `t` the rows of the devices one after the other. -/
theorem C189_pmap_run (s : Metro.Sampler X R K S) (cs : List Call) : ∀ sts : List (Metro.State X K S),
    (pmapRun s cs sts).2 = sts.map (fun st => (run s cs st).2)
    ∧ ∀ i t, ((pmapRun s cs sts).1.getD i []).getD t [] = (sts.map fun st => ((run s cs st).1.getD i []).getD t []).flatten := by
  induction cs with
  | nil => intro sts; simp [pmapRun, run]
  | cons c cs ih =>
    intro sts
    cases c with
    | reset =>
      have := ih (pmapReset s sts)
      unfold pmapReset at this
      simp only [List.map_map] at this
      exact this
    | sample n =>
      have := ih (pmapChain s n sts).2
      refine ⟨?_, ?_⟩
      · have h := this.1
        unfold pmapChain at h
        simp only [List.map_map] at h
        simp only [pmapRun, pmapChain, List.map_map]
        exact h
      · intro i t
        cases i with
        | zero =>
          simp only [pmapRun, run, pmapChain, List.map_map, List.getD_cons_zero, Function.comp_def]
          by_cases ht : t < n
          · rw [List.getD_eq_getElem?_getD, List.getElem?_map, List.getElem?_range ht]
            simp
          · rw [List.getD_eq_getElem?_getD, List.getElem?_eq_none (by simpa using ht), Option.getD_none]
            symm
            rw [List.flatten_eq_nil_iff]
            intro l hl
            obtain ⟨st, -, rfl⟩ := List.mem_map.1 hl
            rw [List.getD_eq_getElem?_getD, List.getElem?_eq_none (by rw [scanChain_length]; omega), Option.getD_none]
        | succ i =>
          have h := this.2 i t
          unfold pmapChain at h
          simp only [List.map_map] at h
          simp only [pmapRun, run, List.getD_cons_succ, pmapChain, List.map_map]
          exact h

/-- C189: after a reset and any number of calls of `sample`, `n_steps` is the number of moves of all chains on all devices and processes. -/
theorem C189_pmap_steps (s : Metro.Sampler X R K S) (p : ℕ) (ns : List ℕ) (sts : List (Metro.State X K S)) :
    pmapSteps p (pmapRun s (.reset :: ns.map Call.sample) sts).2 = p * (sts.length * (s.nChainsPerRank * (s.nSweeps * ns.sum))) := by
  have one : ∀ n (st : Metro.State X K S), (scanChain (sampleNext s) n st).2.nStepsProc = st.nStepsProc + n * (s.nSweeps * s.nChainsPerRank) := by
    intro n
    induction n with
    | zero => intro st; simp [scanChain]
    | succ n ih =>
      intro st
      rw [scanChain]
      dsimp only
      rw [ih]
      unfold sampleNext
      dsimp only
      ring
  have many : ∀ (ns : List ℕ) (st : Metro.State X K S), (run s (ns.map Call.sample) st).2.nStepsProc = st.nStepsProc + ns.sum * (s.nSweeps * s.nChainsPerRank) := by
    intro ns
    induction ns with
    | nil => intro st; simp [run]
    | cons n ns ih =>
      intro st
      rw [List.map_cons, run]
      dsimp only
      rw [ih, one, List.sum_cons]
      ring
  have h := (C189_pmap_run s (.reset :: ns.map Call.sample) sts).1
  unfold pmapSteps
  rw [h, List.map_map]
  have e : (sts.map ((fun st : Metro.State X K S => st.nStepsProc) ∘ fun st => (run s (.reset :: ns.map Call.sample) st).2)) = sts.map fun _ => ns.sum * (s.nSweeps * s.nChainsPerRank) := by
    refine List.map_congr_left fun st _ => ?_
    simp only [Function.comp_def, run]
    rw [many]
    simp [reset]
  rw [e]
  simp
  ring

/-- C189: the acceptance is the fraction of accepted moves of all chains. -/
theorem C189_pmap_acceptance (s : Metro.Sampler X R K S) (ns : List ℕ) (ranks : List (List (Metro.State X K S))) (D : ℕ) (hD : ∀ sts ∈ ranks, sts.length = D)
    (sts : List (Metro.State X K S)) (h : sts ∈ ranks) (hpos : 0 < D * (s.nChainsPerRank * (s.nSweeps * ns.sum))) :
    let after := ranks.map fun r => (pmapRun s (.reset :: ns.map Call.sample) r).2
    pmapAcceptance ranks.length after (pmapRun s (.reset :: ns.map Call.sample) sts).2
      = some ((((after.flatten.map (·.nAcceptedProc)).sum : ℕ) : ℚ) / ((after.flatten.map (·.nStepsProc)).sum : ℕ)) := by
  intro after
  have hp : 0 < ranks.length := List.length_pos_of_mem h
  have e1 : pmapSteps ranks.length (pmapRun s (.reset :: ns.map Call.sample) sts).2 = ranks.length * (D * (s.nChainsPerRank * (s.nSweeps * ns.sum))) := by
    rw [C189_pmap_steps, hD sts h]
  have e2 : ((after.flatten.map (·.nStepsProc)).sum : ℕ) = ranks.length * (D * (s.nChainsPerRank * (s.nSweeps * ns.sum))) := by
    have : (after.flatten.map (·.nStepsProc)).sum = (ranks.map fun r => pmapSteps 1 (pmapRun s (.reset :: ns.map Call.sample) r).2).sum := by
      unfold pmapSteps
      rw [List.map_flatten, List.sum_flatten]
      simp [after, Function.comp_def]
    rw [this, List.map_congr_left (g := fun _ => D * (s.nChainsPerRank * (s.nSweeps * ns.sum)))]
    · simp
    · intro r hr
      rw [C189_pmap_steps, hD r hr, one_mul]
  have e3 : pmapAccepted after = (after.flatten.map (·.nAcceptedProc)).sum := by
    unfold pmapAccepted
    rw [List.map_flatten, List.sum_flatten]
    simp [Function.comp_def]
  unfold pmapAcceptance
  rw [e1, e2, e3, if_neg (by positivity)]

end

/-! ## Deviations -/

/-- C190: `MetropolisSamplerPmap` never warns on one process when it uses more chains than asked for, and it does not round to the nearest multiple of the number of
    devices. -/
theorem C190_pmap_rounding_refuted (h : Hil) :
    (∀ rank D hilbert rule kw s w, pmap 1 rank D true hilbert rule kw = .ok (s, w) → w = false)
    ∧ ∃ s, pmap 1 0 8 true (.hil h) .localRule { nChains := some (some 9) } = .ok (s, false) ∧ s.main.nChainsPerRank = some 16 := by
  constructor
  · intro rank D hilbert rule kw s w hs
    unfold pmap at hs
    split at hs
    · simp at hs
    cases hb : pmapPreInit 1 rank D kw with
    | error e => simp [hb] at hs
    | ok q =>
      obtain ⟨t, w'⟩ := q
      have hw : w' = false := by
        unfold pmapPreInit at hb
        split at hb
        · simp at hb
        cases hc : basePreInit 1 rank kw with
        | error e => simp [hc] at hb
        | ok r =>
          obtain ⟨k, w2⟩ := r
          have hw2 : w2 = false := by
            unfold basePreInit at hc
            split at hc
            · split at hc
              · simp at hc
              · simp only [Except.ok.injEq, Prod.mk.injEq] at hc
                exact hc.2.symm
            · simp only [Except.ok.injEq, Prod.mk.injEq] at hc
              rw [← hc.2]
              simp
          subst hw2
          simp only [hc] at hb
          split at hb <;> simp at hb
          · exact hb.2
          · exact hb.2
      subst hw
      simp only [hb] at hs
      split at hs
      · simp at hs
      · · generalize pmapPostInit 1 rank D true _ = z at hs
          cases z with
          | error e => simp [Except.map] at hs
          | ok z =>
            simp only [Except.map, Except.ok.injEq, Prod.mk.injEq] at hs
            exact hs.2.symm
  · exact ⟨_, rfl, rfl⟩

/-- C190: samples of `MetropolisSamplerPmap` have type float64 whatever `dtype` was asked for. -/
theorem C190_pmap_dtype_refuted (p rank D : ℕ) (hp : 0 < p) (hilbert : HArg) (rule : Rule) (kw : Kw) (s : Pmap) (w : Bool)
    (hs : pmap p rank D true hilbert rule kw = .ok (s, w)) : s.device.dtype = .float64 ∧ s.main.dtype = kw.dtype := by
  unfold pmap at hs
  split at hs
  · simp at hs
  cases hb : pmapPreInit p rank D kw with
  | error e => simp [hb] at hs
  | ok q =>
    obtain ⟨t, w'⟩ := q
    simp only [hb] at hs
    split at hs
    · simp at hs
    cases hq : pmapPostInit p rank D true { hilbert := hilbert, nChainsPerRank := some t, machinePow := kw.machinePow, dtype := kw.dtype, rule := rule, nSweeps := kw.nSweeps, resetChains := kw.resetChain.getD (kw.resetChains.getD (some false)) } with
    | error e =>
      rw [hq] at hs
      simp [Except.map] at hs
    | ok m =>
      rw [hq] at hs
      simp only [Except.map, Except.ok.injEq, Prod.mk.injEq] at hs
      obtain ⟨rfl, rfl⟩ := hs
      unfold pmapPostInit at hq
      simp only [Bool.not_true, Bool.false_eq_true, if_false] at hq
      split at hq
      · simp at hq
      rename_i s' hs'
      obtain ⟨g1, g2, g3, g4, g5, g6, -⟩ := postInit_ok hs'
      simp only at g2 g4
      rw [g2] at hq
      simp only at hq
      split at hq
      · simp at hq
      rename_i d w3 hd
      simp only [Except.ok.injEq] at hq
      subst hq
      obtain ⟨c1, c2, c3, c4, -⟩ := (C189_constructor p rank hp _ _ _).2 d w3 hd
      exact ⟨c4, g4⟩

/-- C190: numbers of chains, exponents and numbers of sweeps that are not positive are accepted: `n_chains=0` becomes one chain per process without a warning on one
    process, `n_chains_per_rank=0` and `None` are kept. -/
theorem C190_not_positive_refuted (h : Hil) (n m k : ℤ) (hn : n ≤ 0) :
    metropolis 1 0 (.hil h) .localRule { nChains := some (some n), machinePow := .int m, nSweeps := some k }
      = .ok (⟨.hil h, some 1, .int m, .float64, .localRule, some k, some false⟩, false)
    ∧ metropolis 1 0 (.hil h) .localRule { nChainsPerRank := some (some n) } = .ok (⟨.hil h, some n, .int 2, .float64, .localRule, some h.size, some false⟩, false)
    ∧ ∃ s w, metropolis 1 0 (.hil h) .localRule { nChainsPerRank := some none } = .ok (s, w) ∧ nChains 1 s = .error .typeError := by
  refine ⟨?_, rfl, ⟨_, _, rfl, rfl⟩⟩
  have : max (ceilDiv n 1) 1 = 1 := max_eq_right ((ceilDiv_le n 1 one_pos 1).2 (by simp; omega))
  simp [metropolis, basePreInit, postInit, basePostInit, this, Except.map]

/-- C190: `replace(hilbert=...)`, which `MCMixedState` uses for the sampler of the diagonal, keeps the number of sweeps that was the size of the first space. -/
theorem C190_replace_refuted (p rank : ℕ) (h h' : Hil) (hne : h.size ≠ h'.size) (s : Smp) (w : Bool) (hs : metropolisLocal p rank (.hil h) {} = .ok (s, w)) :
    ∃ s', replace p rank s { hilbert := some (.hil h') } = .ok (s', false) ∧ s'.hilbert = .hil h' ∧ s'.nSweeps = some h.size ∧ s'.nSweeps ≠ some h'.size := by
  simp only [metropolisLocal, metropolis, basePreInit, postInit, basePostInit] at hs
  simp [Except.map] at hs
  obtain ⟨rfl, -⟩ := hs
  refine ⟨_, rfl, rfl, rfl, ?_⟩
  simpa using hne

/-- C190: pairs of sites need not be sites of the space, and a graph need not have as many sites. -/
theorem C190_exchange_refuted (p rank : ℕ) (h : Hil) (cl : List (ℤ × ℤ)) :
    ∃ s w, metropolisExchange p rank (.hil h) (some cl) none 1 {} = .ok (s, w) ∧ s.rule = .exchange cl ∧ ruleInit s = none :=
  ⟨_, _, rfl, rfl, rfl⟩

/-- C190: parallel tempering samplers cannot be printed; the deprecated `acceptance_ratio` fails before the first sample instead of returning None. -/
theorem C190_repr_refuted : ptRepr ptFields = some .attributeError ∧ acceptanceRatio none = .error .typeError := by
  constructor
  · decide
  · rfl

/-- C190, the part that holds: after sampling `acceptance_ratio` is the percentage. -/
theorem C190_ratio_partial (a : ℚ) : acceptanceRatio (some a) = .ok (100 * a) := by
  rw [acceptanceRatio, mul_comm]

/-! ## Examples -/

/-- 16 chains on 3 processes: 6 on each, with a warning of process 0. -/
example (h : Hil) : metropolisLocal 3 0 (.hil h) {} = .ok (⟨.hil h, some 6, .int 2, .float64, .localRule, some h.size, some false⟩, true) := rfl

/-- 10 chains on 2 processes with 4 devices: two chains per device. -/
example : pmap 2 0 4 true (.hil ⟨0, 5⟩) .localRule { nChains := some (some 10), dtype := .float32 }
    = .ok (⟨⟨.hil ⟨0, 5⟩, some 8, .int 2, .float32, .localRule, some 5, some false⟩, ⟨.hil ⟨0, 5⟩, some 2, .int 2, .float64, .localRule, some 5, some false⟩⟩, false) := by
  decide

example : Accepts (.hil ⟨0, 5⟩) .localRule { nChains := some (some 10) } := ⟨rfl, rfl, rfl, by simp, ⟨_, rfl⟩, ⟨_, rfl⟩, by decide, rfl⟩

end Verif.SamplerCtor
