import Verif.Model.LegacyJaxSampler
import Verif.Props.LegacySampler

/-! C244 (legacy samplers on JAX: moves, samples, stationary distribution, arguments), C245 (where they differ from the documentation). -/

set_option linter.unusedSectionVars false

namespace Verif.LegacyJs

open Verif.Hilbert (Err)
open Verif.Legacy (sortStates localRow exchangeSites move sortStates_length sortStates_mem localValue_eq localValue)
open Verif.Markov Verif.Metro

/-! ## Specification -/

section
variable {K : Type}

/-- one Metropolis move of all chains with the keys made from `k`: chain `i` goes from `a[i]` to its proposal if its uniform number is below the
    ratio of the probabilities `|psi|^pow`, and stays otherwise. -/
def Moved (g : Rng K ℝ) (lp : Row → ℝ) (kern : Kernel K) (pow : ℝ) (k : K) (a b : List Row) : Prop :=
  b.length = a.length ∧ ∀ i (h : i < a.length) (h' : i < b.length),
    let y := kern.transition (g.split k (2 + a.length) (2 + i)) a[i]
    (g.uniform (g.split k (2 + a.length) 1) i < Real.exp (pow * lp y - pow * lp a[i]) → b[i] = y)
    ∧ (¬ g.uniform (g.split k (2 + a.length) 1) i < Real.exp (pow * lp y - pow * lp a[i]) → b[i] = a[i])

/-- `m` moves in a row, the key of each one made from the one before: from `a` with key `k` to `b` with key `k'`. -/
inductive Moves (g : Rng K ℝ) (lp : Row → ℝ) (kern : Kernel K) (pow : ℝ) : Nat → K → List Row → K → List Row → Prop
  | zero (k : K) (a : List Row) : Moves g lp kern pow 0 k a k a
  | succ {m k a k' b c} (h : Moves g lp kern pow m k a k' b) (h' : Moved g lp kern pow k' b c) :
      Moves g lp kern pow (m + 1) k a (g.split k' (2 + b.length) 0) c

/-- samples: each one is `m` moves after the one before. -/
inductive Samples (g : Rng K ℝ) (lp : Row → ℝ) (kern : Kernel K) (pow : ℝ) (m : Nat) : K → List Row → List (List Row) → Prop
  | nil (k : K) (a : List Row) : Samples g lp kern pow m k a []
  | cons {k a k' b l} (h : Moves g lp kern pow m k a k' b) (h' : Samples g lp kern pow m k' b l) : Samples g lp kern pow m k a (b :: l)

/-! ## Moves and samples -/

theorem oneStep_spec (g : Rng K ℝ) (lp : Row → ℝ) (kern : Kernel K) (pow : ℝ) (w : Walker K ℝ)
    (hl : w.logs = w.rows.map fun σ => pow * lp σ) :
    Moved g lp kern pow w.key w.rows (oneStep g Real.exp lp kern pow w).rows
    ∧ (oneStep g Real.exp lp kern pow w).logs = (oneStep g Real.exp lp kern pow w).rows.map (fun σ => pow * lp σ)
    ∧ (oneStep g Real.exp lp kern pow w).key = g.split w.key (2 + w.rows.length) 0 := by
  have key : ∀ i (h : i < w.rows.length), (oneStep g Real.exp lp kern pow w).rows[i]? =
      some (if g.uniform (g.split w.key (2 + w.rows.length) 1) i
          < Real.exp (pow * lp (kern.transition (g.split w.key (2 + w.rows.length) (2 + i)) w.rows[i]) - pow * lp w.rows[i])
        then kern.transition (g.split w.key (2 + w.rows.length) (2 + i)) w.rows[i] else w.rows[i])
      ∧ (oneStep g Real.exp lp kern pow w).logs[i]? =
      some (pow * lp (if g.uniform (g.split w.key (2 + w.rows.length) 1) i
          < Real.exp (pow * lp (kern.transition (g.split w.key (2 + w.rows.length) (2 + i)) w.rows[i]) - pow * lp w.rows[i])
        then kern.transition (g.split w.key (2 + w.rows.length) (2 + i)) w.rows[i] else w.rows[i])) := by
    intro i h
    simp only [oneStep, hl, List.getElem?_map, List.getElem?_range h, Option.map_some, List.getD_eq_getElem?_getD, List.getElem?_mapIdx,
      List.getElem?_eq_getElem h, Option.getD_some, decide_eq_true_eq, Option.some.injEq]
    refine ⟨trivial, ?_⟩
    split <;> rfl
  have hlen : (oneStep g Real.exp lp kern pow w).rows.length = w.rows.length := by simp [oneStep]
  have hlen2 : (oneStep g Real.exp lp kern pow w).logs.length = w.rows.length := by simp [oneStep]
  refine ⟨⟨hlen, ?_⟩, ?_, rfl⟩
  · intro i h h'
    have := (key i h).1
    rw [List.getElem?_eq_getElem h', Option.some.injEq] at this
    dsimp only
    constructor
    · intro hu
      rw [this, if_pos hu]
    · intro hu
      rw [this, if_neg hu]
  · refine List.ext_getElem? ?_
    intro i
    by_cases h : i < w.rows.length
    · rw [(key i h).2, List.getElem?_map, (key i h).1]
      rfl
    · rw [List.getElem?_eq_none (by omega), List.getElem?_eq_none (by rw [List.length_map]; omega)]

theorem fold_spec (g : Rng K ℝ) (lp : Row → ℝ) (kern : Kernel K) (pow : ℝ) (m : Nat) (w : Walker K ℝ)
    (hl : w.logs = w.rows.map fun σ => pow * lp σ) :
    let w1 := (List.range m).foldl (fun w _ => oneStep g Real.exp lp kern pow w) w
    Moves g lp kern pow m w.key w.rows w1.key w1.rows ∧ w1.logs = w1.rows.map fun σ => pow * lp σ := by
  induction m with
  | zero => exact ⟨Moves.zero _ _, hl⟩
  | succ m ih =>
    dsimp only at ih ⊢
    rw [List.range_succ, List.foldl_append]
    simp only [List.foldl_cons, List.foldl_nil]
    generalize (List.range m).foldl (fun w _ => oneStep g Real.exp lp kern pow w) w = w1 at ih ⊢
    obtain ⟨h1, h2⟩ := ih
    obtain ⟨a, b, c⟩ := oneStep_spec g lp kern pow w1 h2
    rw [c]
    exact ⟨Moves.succ h1 a, b⟩

theorem sweeps_spec (g : Rng K ℝ) (lp : Row → ℝ) (kern : Kernel K) (pow : ℝ) (sweep : Int) (n : Nat) (w : Walker K ℝ)
    (hl : w.logs = w.rows.map fun σ => pow * lp σ) :
    Samples g lp kern pow sweep.toNat w.key w.rows (sweeps g Real.exp lp kern pow sweep n w)
    ∧ (sweeps g Real.exp lp kern pow sweep n w).length = n := by
  induction n generalizing w with
  | zero => exact ⟨Samples.nil _ _, rfl⟩
  | succ n ih =>
    obtain ⟨h1, h2⟩ := fold_spec g lp kern pow sweep.toNat w hl
    obtain ⟨a, b⟩ := ih _ h2
    exact ⟨Samples.cons h1 a, by rw [sweeps, List.length_cons]; exact congrArg Nat.succ b⟩

/-- number of chains and invariants are kept by the moves. -/
theorem Moves.length {g : Rng K ℝ} {lp : Row → ℝ} {kern : Kernel K} {pow : ℝ} {m : Nat} {k k' : K} {a b : List Row}
    (h : Moves g lp kern pow m k a k' b) : b.length = a.length := by
  induction h with
  | zero => rfl
  | succ h h' ih => rw [h'.1, ih]

theorem Moves.invariant {g : Rng K ℝ} {lp : Row → ℝ} {kern : Kernel K} {pow : ℝ} {m : Nat} {k k' : K} {a b : List Row}
    (h : Moves g lp kern pow m k a k' b) (P : Row → Prop) (hP : ∀ key σ, P σ → P (kern.transition key σ)) (ha : ∀ σ ∈ a, P σ) :
    ∀ σ ∈ b, P σ := by
  induction h with
  | zero => exact ha
  | succ h h' ih =>
    intro σ hσ
    obtain ⟨i, hi, rfl⟩ := List.getElem_of_mem hσ
    have hi' := hi
    rw [h'.1] at hi'
    obtain ⟨h1, h2⟩ := h'.2 i hi' hi
    have hp := ih ha _ (List.getElem_mem hi')
    rcases Classical.em _ with hu | hu
    · rw [h1 hu]; exact hP _ _ hp
    · rw [h2 hu]; exact hp

theorem Samples.invariant {g : Rng K ℝ} {lp : Row → ℝ} {kern : Kernel K} {pow : ℝ} {m : Nat} {k : K} {a : List Row} {l : List (List Row)}
    (h : Samples g lp kern pow m k a l) (P : Row → Prop) (hP : ∀ key σ, P σ → P (kern.transition key σ)) (ha : ∀ σ ∈ a, P σ) :
    ∀ b ∈ l, b.length = a.length ∧ ∀ σ ∈ b, P σ := by
  induction h with
  | nil => simp
  | cons h h' ih =>
    have hb := h.invariant P hP ha
    intro c hc
    rcases List.mem_cons.1 hc with rfl | hc
    · exact ⟨h.length, hb⟩
    · exact ⟨by rw [(ih hb c hc).1, h.length], (ih hb c hc).2⟩

/-- `generate_samples(n)` without `init_random` for `n > 0`: `n` samples, the first `sweep_size` moves after the present states and each
    one `sweep_size` moves after the one before; the last one becomes the present state; nothing else but the key is changed, and the key
    of the chain is not the one kept. -/
theorem C244_generate (g : Rng K ℝ) (lp : Row → ℝ) (kern : Kernel K) (drawn : Row) (n : Nat) (hn : 0 < n) (s : Mh K ℝ) :
    ∃ l, generateSamples g Real.exp lp kern drawn n false s
        = ({ s with key := g.split s.key 2 0, state := l.getLast?.getD [] }, .ok (some l))
      ∧ l.length = n ∧ Samples g lp kern s.pow s.sweep.toNat (g.split s.key 2 1) s.state l := by
  have h := sweeps_spec g lp kern s.pow s.sweep n ⟨g.split s.key 2 1, s.state, s.state.map fun σ => s.pow * lp σ⟩ rfl
  refine ⟨_, ?_, h.2, h.1⟩
  rw [generateSamples, if_neg (by omega)]
  rfl

/-- `next(sampler)`: the states `sweep_size` moves later, which become the present ones. -/
theorem C244_next (g : Rng K ℝ) (lp : Row → ℝ) (kern : Kernel K) (s : Mh K ℝ) :
    ∃ b k', next g Real.exp lp kern s = ({ s with key := g.split s.key 2 0, state := b }, b)
      ∧ Moves g lp kern s.pow s.sweep.toNat (g.split s.key 2 1) s.state k' b := by
  obtain ⟨h1, _⟩ := fold_spec g lp kern s.pow s.sweep.toNat ⟨g.split s.key 2 1, s.state, s.state.map fun σ => s.pow * lp σ⟩ rfl
  exact ⟨_, _, rfl, h1⟩

/-- properties kept by the proposals hold for all samples: in particular they are configurations of the machine's space. -/
theorem C244_invariant (g : Rng K ℝ) (lp : Row → ℝ) (kern : Kernel K) (drawn : Row) (n : Nat) (s : Mh K ℝ) (P : Row → Prop)
    (hP : ∀ key σ, P σ → P (kern.transition key σ)) (hs : ∀ σ ∈ s.state, P σ) (s' : Mh K ℝ) (l : List (List Row))
    (h : generateSamples g Real.exp lp kern drawn n false s = (s', .ok (some l))) :
    (∀ b ∈ l, b.length = s.state.length ∧ ∀ σ ∈ b, P σ) ∧ s'.state.length = s.state.length ∧ ∀ σ ∈ s'.state, P σ := by
  rcases Nat.eq_zero_or_pos n with rfl | hn
  · simp [generateSamples] at h
  · obtain ⟨l', h1, h2, h3⟩ := C244_generate g lp kern drawn n hn s
    rw [h1] at h
    simp only [Prod.mk.injEq, Except.ok.injEq, Option.some.injEq] at h
    obtain ⟨rfl, rfl⟩ := h
    have hi := h3.invariant P hP hs
    refine ⟨hi, ?_⟩
    cases hl : l'.getLast? with
    | none =>
      rw [List.getLast?_eq_none_iff] at hl
      rw [hl] at h2
      simp at h2
      omega
    | some b => exact hi b (List.mem_of_getLast? hl)

/-! ## Kernels -/

theorem jget_of_lt (l : List Int) (i : Nat) (h : i < l.length) : jget l i = l[i] := by
  rw [jget, Nat.min_eq_left (by omega), List.getD_eq_getElem?_getD, List.getElem?_eq_getElem h, Option.getD_some]

theorem jget_mem (l : List Int) (i : Nat) (h : 0 < l.length) : jget l i ∈ l := by
  have : min i (l.length - 1) < l.length := by omega
  rw [jget, List.getD_eq_getElem?_getD, List.getElem?_eq_getElem this, Option.getD_some]
  exact List.getElem_mem this

/-- numbers drawn by the generator are in range. -/
def InRange (g : Rng K ℝ) : Prop := ∀ k n i, 0 < n → g.randint k n i < n

theorem localMove_eq (ls : List Int) (si rs : Nat) (σ : Row) (h1 : si < σ.length) (h2 : rs < ls.length - 1) :
    localMove ls si rs σ = (localRow ls si rs σ).getD σ := by
  rw [localMove, localRow, List.getElem?_eq_getElem h1, jget_of_lt _ _ h1, jget_of_lt ls rs (by omega)]
  simp only
  rw [localValue, List.getElem?_eq_getElem (show rs < ls.length by omega)]
  simp only
  have h3 : rs + (if ls[rs] ≥ σ[si] then 1 else 0) < ls.length := by split <;> omega
  rw [jget_of_lt _ _ h3, List.getElem?_eq_getElem h3]
  rfl

theorem exchangeMove_eq (clusters : List (Nat × Nat)) (cl : Nat) (σ : Row) (hc : ∀ c ∈ clusters, c.1 < σ.length ∧ c.2 < σ.length)
    (h : cl < clusters.length) : exchangeMove clusters cl σ = (exchangeSites clusters cl σ).getD σ := by
  obtain ⟨h1, h2⟩ := hc _ (List.getElem_mem h)
  have e : clusters.getD (min cl (clusters.length - 1)) (0, 0) = clusters[cl] := by
    rw [Nat.min_eq_left (by omega), List.getD_eq_getElem?_getD, List.getElem?_eq_getElem h, Option.getD_some]
  rw [exchangeMove, e, jget_of_lt _ _ h1, jget_of_lt _ _ h2, exchangeSites]
  simp only [List.getElem?_eq_getElem h, List.getElem?_eq_getElem h1, List.getElem?_eq_getElem h2, Option.getD_some]

/-- local kernel: the proposal differs from the configuration at exactly one site, where it has another local state; each other local state
    is proposed for exactly one number drawn. -/
theorem C244_local (g : Rng K ℝ) (hg : InRange g) (raw : List Int) (hn : raw.Nodup) (h2 : 2 ≤ raw.length) (σ : Row) (hσ : ∀ v ∈ σ, v ∈ raw)
    (h0 : 0 < σ.length) :
    (∀ key, ∃ (si : Nat) (hs : si < σ.length), ∃ w ∈ raw, w ≠ σ[si] ∧ (localKernel g raw σ.length).transition key σ = σ.set si w)
    ∧ ∀ (si : Nat) (hs : si < σ.length), ∀ w ∈ raw, w ≠ σ[si] → ∃ rs, rs < raw.length - 1
      ∧ localMove (sortStates raw) si rs σ = σ.set si w
      ∧ ∀ rs', rs' < raw.length - 1 → localMove (sortStates raw) si rs' σ = σ.set si w → rs' = rs := by
  have hlen := sortStates_length raw
  constructor
  · intro key
    have h1 : g.randint (g.split key 2 0) σ.length 0 < σ.length := hg _ _ _ h0
    have h3 : g.randint (g.split key 2 1) ((sortStates raw).length - 1) 0 < (sortStates raw).length - 1 := hg _ _ _ (by rw [hlen]; omega)
    obtain ⟨w, hw, hne, e⟩ := (Legacy.C175_local raw hn σ hσ _ h1).1 _ (by rw [← hlen]; exact h3)
    refine ⟨_, h1, w, hw, hne, ?_⟩
    rw [localKernel]
    dsimp only
    rw [localMove_eq _ _ _ _ h1 h3, e]
    rfl
  · intro si hs w hw hne
    obtain ⟨rs, a, b, c⟩ := (Legacy.C175_local raw hn σ hσ si hs).2 w hw hne
    refine ⟨rs, a, ?_, ?_⟩
    · rw [localMove_eq _ _ _ _ hs (by rw [hlen]; exact a), b]
      rfl
    · intro rs' h' e'
      refine c rs' h' ?_
      obtain ⟨w', _, _, ew⟩ := (Legacy.C175_local raw hn σ hσ si hs).1 rs' h'
      rw [localMove_eq _ _ _ _ hs (by rw [hlen]; exact h'), ew] at e'
      rw [ew]
      exact congrArg some e'

/-- exchange kernel: the values at the two sites of the cluster drawn are exchanged; doing it again restores the configuration. -/
theorem C244_exchange (g : Rng K ℝ) (hg : InRange g) (clusters : List (Nat × Nat)) (hne : clusters ≠ []) (σ : Row)
    (hc : ∀ c ∈ clusters, c.1 < σ.length ∧ c.2 < σ.length) (key : K) :
    ∃ c ∈ clusters, ∃ τ, (exchangeKernel g clusters).transition key σ = τ ∧ τ.Perm σ ∧ τ[c.1]? = σ[c.2]? ∧ τ[c.2]? = σ[c.1]?
      ∧ (∀ k, k ≠ c.1 → k ≠ c.2 → τ[k]? = σ[k]?) ∧ (exchangeKernel g clusters).transition key τ = σ := by
  have h : g.randint key clusters.length 0 < clusters.length := hg _ _ _ (List.length_pos_iff.2 hne)
  obtain ⟨τ, a, b, c, d, e, f⟩ := Legacy.C175_exchange clusters σ hc _ h
  refine ⟨_, List.getElem_mem h, τ, ?_, c, d, e, f, ?_⟩
  · rw [exchangeKernel]
    dsimp only
    rw [exchangeMove_eq _ _ _ hc h, a]
    rfl
  · rw [exchangeKernel]
    dsimp only
    rw [exchangeMove_eq _ _ _ (by rw [c.length_eq]; exact hc) h, b]
    rfl

/-- one move of one chain with a proposal `prop d x`, as in the specification `Moved`. -/
noncomputable def chainMove {D : Type} (pow : ℝ) (lp : Row → ℝ) (prop : D → Row → Row) (d : D) (u : ℝ) (x : Row) : Row :=
  if u < Real.exp (pow * lp (prop d x) - pow * lp x) then prop d x else x

theorem chainMove_eq {D : Type} (pow : ℝ) (lp : Row → ℝ) (prop : D → Row → Row) :
    chainMove pow lp prop = step (fun x => pow * lp x) prop (fun _ _ => none) := by
  funext d u x
  simp only [chainMove, step, moveOne, acceptOne, decide_eq_true_eq]

/-- with a site and a number drawn uniformly, any number of moves of `MetropolisLocal` satisfies detailed balance for `|psi|^machine_pow` on the
    configurations of local states and leaves it stationary. -/
theorem C244_local_stationary (raw : List Int) (hn : raw.Nodup) (h2 : 2 ≤ raw.length) (N : Nat) (hN : 0 < N) (S : Finset (List Int))
    (hS : ∀ σ, σ ∈ S ↔ σ.length = N ∧ ∀ v ∈ σ, v ∈ raw) (pow : ℝ) (lp : Row → ℝ) (n : Nat) :
    let P := kpow S (kernel (fun _ _ => 1 / (Fintype.card (Fin N × Fin (raw.length - 1)) : ℝ))
      (chainMove pow lp fun (d : Fin N × Fin (raw.length - 1)) σ => localMove (sortStates raw) d.1 d.2 σ)) n
    Stochastic S P ∧ Reversible S (fun σ => Real.exp (pow * lp σ)) P ∧ Stationary S (fun σ => Real.exp (pow * lp σ)) P := by
  have hlen := sortStates_length raw
  have hb := C44_local_balanced (sortStates raw) (Legacy.sortStates_sorted raw hn) (by rw [hlen]; exact h2) N hN S
    (fun σ => by rw [hS]; simp only [sortStates_mem])
  rw [chainMove_eq]
  rw [hlen] at hb
  refine C44_stationary S _ _ _ (fun x => pow * lp x) (Legacy.balanced_congr ?_ hb) n
  intro σ hσ d
  obtain ⟨hl, _⟩ := (hS σ).1 hσ
  have hi : (d.1 : Nat) < σ.length := by rw [hl]; exact d.1.2
  rw [localMove_eq _ _ _ _ hi (by rw [hlen]; exact d.2.2)]
  simp only [localRow, List.getElem?_eq_getElem hi, localNumpyRow, List.getD_eq_getElem?_getD, Option.getD_some]
  rw [localValue_eq _ _ _ (by rw [hlen]; exact d.2.2)]
  rfl

/-- the same for `MetropolisExchange` on every set of configurations closed under rearrangement. -/
theorem C244_exchange_stationary (clusters : List (Nat × Nat)) (hne : clusters ≠ []) (N : Nat) (hcl : ∀ c ∈ clusters, c.1 < N ∧ c.2 < N)
    (S : Finset (List Int)) (hlen : ∀ σ ∈ S, σ.length = N) (hperm : ∀ σ ∈ S, ∀ τ, τ.Perm σ → τ ∈ S) (pow : ℝ) (lp : Row → ℝ) (n : Nat) :
    let P := kpow S (kernel (fun _ _ => 1 / (Fintype.card (Fin clusters.length) : ℝ))
      (chainMove pow lp fun (d : Fin clusters.length) σ => exchangeMove clusters d σ)) n
    Stochastic S P ∧ Reversible S (fun σ => Real.exp (pow * lp σ)) P ∧ Stationary S (fun σ => Real.exp (pow * lp σ)) P := by
  have : Nonempty (Fin clusters.length) := ⟨⟨0, List.length_pos_iff.2 hne⟩⟩
  rw [chainMove_eq]
  have hex : ∀ σ ∈ S, ∀ d : Fin clusters.length, (exchangeMove clusters d σ).Perm σ ∧ exchangeMove clusters d (exchangeMove clusters d σ) = σ := by
    intro σ hσ d
    have hc : ∀ c ∈ clusters, c.1 < σ.length ∧ c.2 < σ.length := by rw [hlen σ hσ]; exact hcl
    obtain ⟨τ, a, b, c, _⟩ := Legacy.C175_exchange clusters σ hc d d.2
    have e : exchangeMove clusters d σ = τ := by rw [exchangeMove_eq _ _ _ hc d.2, a]; rfl
    rw [e]
    refine ⟨c, ?_⟩
    rw [exchangeMove_eq _ _ _ (by rw [c.length_eq]; exact hc) d.2, b]
    rfl
  refine C44_stationary S _ _ _ (fun x => pow * lp x) (balanced_of_symm S _ ?_ ?_) n
  · intro σ hσ d
    exact hperm σ hσ _ (hex σ hσ d).1
  · intro σ hσ τ hτ _
    congr 1
    ext d
    simp only [Finset.mem_filter, Finset.mem_univ, true_and]
    exact ⟨fun h => by rw [← h]; exact (hex σ hσ d).2, fun h => by rw [← h]; exact (hex τ hτ d).2⟩

/-! ## Construction and reset -/

theorem randomRows_length (kern : Kernel K) (drawn : Row) (n : Nat) (k : K) : (randomRows kern drawn n k).2.length = n := by
  induction n generalizing k with
  | zero => rfl
  | succ n ih => rw [randomRows, List.length_cons, ih]

theorem randomRows_mem (kern : Kernel K) (drawn : Row) (P : Row → Prop) (hP : ∀ k, P (kern.random k drawn).2) (n : Nat) (k : K) :
    ∀ σ ∈ (randomRows kern drawn n k).2, P σ := by
  induction n generalizing k with
  | zero => simp [randomRows]
  | succ n ih =>
    intro σ hσ
    rw [randomRows] at hσ
    rcases List.mem_cons.1 hσ with rfl | h
    · exact hP k
    · exact ih _ σ h

theorem local_random (g : Rng K ℝ) (raw : List Int) (hne : raw ≠ []) (N : Nat) (k : K) (d : Row) :
    ((localKernel g raw N).random k d).2.length = N ∧ ∀ v ∈ ((localKernel g raw N).random k d).2, v ∈ raw := by
  have hl : 0 < (sortStates raw).length := by rw [sortStates_length]; exact List.length_pos_iff.2 hne
  constructor
  · simp [localKernel]
  · intro v hv
    simp only [localKernel, List.mem_map, List.mem_range] at hv
    obtain ⟨i, _, rfl⟩ := hv
    exact (sortStates_mem raw _).1 (jget_mem _ _ hl)

/-- `MetropolisLocal(machine, n_chains, sweep_size, rng_key)` on a JAX machine with non-negative numbers: `n_chains` configurations of local
    states, `machine_pow = 2`, `sweep_size` as given or the number of sites; negative numbers are ValueErrors. -/
theorem C244_construct (g : Rng K ℝ) (raw : List Int) (hne : raw ≠ []) (N : Nat) (drawn : Row) (nChains : Int) (sweep : Option Int)
    (rngKey : Option K) (fresh : K) :
    (0 ≤ nChains → (∀ m, sweep = some m → 0 ≤ m) → ∃ s : Mh K ℝ, mkMh (localKernel g raw N) N drawn nChains sweep rngKey fresh = .ok s
      ∧ s.nChains = nChains ∧ s.shape = (nChains, N) ∧ s.pow = 2 ∧ s.sweep = sweep.getD (N : Int) ∧ (s.state.length : Int) = nChains
      ∧ ∀ σ ∈ s.state, σ.length = N ∧ ∀ v ∈ σ, v ∈ raw)
    ∧ (nChains < 0 ∨ (∃ m, sweep = some m ∧ m < 0) → (mkMh (localKernel g raw N) N drawn nChains sweep rngKey fresh : Except Err (Mh K ℝ)) = .error .valueError) := by
  have hr : ∀ (c : Row) (k : K), ∀ σ ∈ (randomRows (localKernel g raw N) c nChains.toNat k).2, σ.length = N ∧ ∀ v ∈ σ, v ∈ raw := by
    intro c k
    exact randomRows_mem _ _ (fun σ => σ.length = N ∧ ∀ v ∈ σ, v ∈ raw) (fun k => local_random g raw hne N k c) _ _
  have hset : ∀ k : K, 0 ≤ nChains → setChains (R := ℝ) (localKernel g raw N) drawn nChains
      { nChains := nChains, shape := (nChains, N), pow := 2, sweep := 0, state := [], key := k, traced := none }
      = ({ nChains := nChains, shape := (nChains, N), pow := 2, sweep := 0,
           state := (randomRows (localKernel g raw N) drawn nChains.toNat k).2,
           key := (randomRows (localKernel g raw N) drawn nChains.toNat k).1, traced := some drawn }, none) := by
    intro k h0
    rw [setChains, if_neg (by omega), reset, if_pos rfl]
    dsimp only [Option.getD]
    rw [if_pos ⟨by rw [randomRows_length]; omega, fun σ h => (hr _ _ σ h).1⟩]
  constructor
  · intro h0 hs
    have e : (mkMh (localKernel g raw N) N drawn nChains sweep rngKey fresh : Except Err (Mh K ℝ)) = .ok
        { nChains := nChains, shape := (nChains, N), pow := 2, sweep := sweep.getD (N : Int),
          state := (randomRows (localKernel g raw N) drawn nChains.toNat (rngKey.getD fresh)).2,
          key := (randomRows (localKernel g raw N) drawn nChains.toNat (rngKey.getD fresh)).1, traced := some drawn } := by
      rw [mkMh, hset _ h0]
      dsimp only [setSweep]
      rw [if_neg (by cases sweep with
        | none => simp
        | some m => have := hs m rfl; simp; omega)]
    refine ⟨_, e, rfl, rfl, rfl, rfl, ?_, ?_⟩
    · dsimp only
      rw [randomRows_length]
      omega
    · exact hr _ _
  · intro h
    by_cases h0 : nChains < 0
    · rw [mkMh, setChains, if_pos h0]
    · obtain ⟨m, rfl, hm⟩ := h.resolve_left h0
      rw [mkMh, hset _ (by omega)]
      dsimp only [setSweep, Option.getD]
      rw [if_pos hm]

/-- `reset(init_random=True)` with the local kernel: new configurations of local states, with a new key for every chain; `reset()` changes
    nothing. -/
theorem C244_reset (g : Rng K ℝ) (raw : List Int) (hne : raw ≠ []) (N : Nat) (drawn : Row) (s : Mh K ℝ) (h : s.shape = (s.nChains, N))
    (h0 : 0 ≤ s.nChains) :
    reset (localKernel g raw N) drawn false s = (s, none)
    ∧ ∃ s', reset (localKernel g raw N) drawn true s = (s', none) ∧ (s'.state.length : Int) = s.nChains
      ∧ (∀ σ ∈ s'.state, σ.length = N ∧ ∀ v ∈ σ, v ∈ raw)
      ∧ (∀ i (hi : i < s'.state.length), s'.state[i] = ((localKernel g raw N).random ((fun k => g.split k 2 0)^[i] s.key) []).2)
      ∧ s'.key = (fun k => g.split k 2 0)^[s'.state.length] s.key
      ∧ s'.nChains = s.nChains ∧ s'.shape = s.shape ∧ s'.pow = s.pow ∧ s'.sweep = s.sweep := by
  refine ⟨rfl, ?_⟩
  have hr : ∀ (c : Row) (n : Nat) (k : K), ∀ σ ∈ (randomRows (localKernel g raw N) c n k).2, σ.length = N ∧ ∀ v ∈ σ, v ∈ raw := by
    intro c n k
    exact randomRows_mem _ _ (fun σ => σ.length = N ∧ ∀ v ∈ σ, v ∈ raw) (fun k => local_random g raw hne N k c) _ _
  have hget : ∀ (c : Row) (n : Nat) (k : K), (∀ i (hi : i < (randomRows (localKernel g raw N) c n k).2.length),
      (randomRows (localKernel g raw N) c n k).2[i] = ((localKernel g raw N).random ((fun k => g.split k 2 0)^[i] k) []).2)
      ∧ (randomRows (localKernel g raw N) c n k).1 = (fun k => g.split k 2 0)^[n] k := by
    intro c n
    induction n with
    | zero => intro k; exact ⟨fun i hi => by simp [randomRows] at hi, rfl⟩
    | succ n ih =>
      intro k
      obtain ⟨ih1, ih2⟩ := ih (g.split k 2 0)
      constructor
      · intro i hi
        cases i with
        | zero => rfl
        | succ i =>
          rw [Function.iterate_succ_apply]
          exact ih1 i (by simpa [randomRows, localKernel] using hi)
      · rw [Function.iterate_succ_apply]
        exact ih2
  rw [reset, if_pos rfl]
  dsimp only
  rw [if_pos ⟨by rw [randomRows_length, h]; dsimp only; omega, fun σ hσ => by rw [h]; exact (hr _ _ _ σ hσ).1⟩]
  refine ⟨_, rfl, ?_, hr _ _ _, (hget _ _ _).1, ?_, rfl, rfl, rfl, rfl⟩
  · dsimp only
    rw [randomRows_length]
    omega
  · dsimp only
    rw [randomRows_length]
    exact (hget _ _ _).2

/-! ## Where the samplers differ from the documentation -/

/-- `reset(init_random=True)` should give independent random states; with the exchange kernel all chains have the one configuration which was drawn
    when the function was traced, and later resets give the same one again. -/
theorem C245_exchange_reset_refuted :
    ¬ ∀ (g : Rng Unit ℝ) (clusters : List (Nat × Nat)) (s : Mh Unit ℝ) (d1 d2 : Row), d1.length = s.shape.2 → d2.length = s.shape.2 →
      s.shape.1 = s.nChains → 1 ≤ s.nChains → d1 ≠ d2 →
      (reset (exchangeKernel g clusters) d2 true (reset (exchangeKernel g clusters) d1 true s).1).1.state
        ≠ (reset (exchangeKernel g clusters) d1 true s).1.state := by
  intro h
  refine h ⟨fun _ _ _ => (), fun _ _ _ => 0, fun _ _ => 0⟩ [(0, 1)] ⟨1, (1, 2), 2, 2, [], (), none⟩ [1, -1] [-1, 1] rfl rfl rfl
    (by decide) (by decide) ?_
  rfl

/-- what holds: the first reset after construction gives every chain the configuration drawn; every later one the same. -/
theorem C245_exchange_reset_partial (g : Rng K ℝ) (clusters : List (Nat × Nat)) (s : Mh K ℝ) (drawn : Row) (h : s.shape.1 = s.nChains)
    (h0 : 0 ≤ s.nChains) (hl : (s.traced.getD drawn).length = s.shape.2) :
    reset (exchangeKernel g clusters) drawn true s
      = ({ s with state := List.replicate s.nChains.toNat (s.traced.getD drawn), traced := some (s.traced.getD drawn) }, none) := by
  have hr : ∀ (n : Nat) (c : Row) (k : K), randomRows (exchangeKernel g clusters) c n k = (k, List.replicate n c) := by
    intro n c k
    induction n with
    | zero => rfl
    | succ n ih =>
      rw [randomRows]
      simp only [exchangeKernel] at ih ⊢
      rw [ih, List.replicate_succ]
  rw [reset, if_pos rfl]
  simp only [hr]
  rw [if_pos ⟨by rw [List.length_replicate, h]; omega, fun σ hσ => by rw [List.eq_of_mem_replicate hσ]; exact hl⟩]

/-- setting `n_chains` to another number fails after the attribute and the states have been changed. -/
theorem C245_n_chains_refuted (g : Rng K ℝ) (raw : List Int) (N : Nat) (drawn : Row) (s : Mh K ℝ) (h : s.shape.1 = s.nChains) (n : Int)
    (h0 : 0 ≤ n) (hne : n ≠ s.nChains) :
    (setChains (localKernel g raw N) drawn n s).2 = some .assertionError ∧ (setChains (localKernel g raw N) drawn n s).1.nChains = n
      ∧ ((setChains (localKernel g raw N) drawn n s).1.state.length : Int) = n := by
  rw [setChains, if_neg (by omega), reset, if_pos rfl]
  dsimp only
  rw [if_neg (by
    rintro ⟨h1, _⟩
    rw [randomRows_length, h] at h1
    omega)]
  exact ⟨rfl, rfl, by dsimp only; rw [randomRows_length]; omega⟩

/-- setting it to the present number works (and draws new states). -/
theorem C245_n_chains_partial (g : Rng K ℝ) (raw : List Int) (hne : raw ≠ []) (N : Nat) (drawn : Row) (s : Mh K ℝ) (h : s.shape = (s.nChains, N))
    (h0 : 0 ≤ s.nChains) : setChains (localKernel g raw N) drawn s.nChains s = reset (localKernel g raw N) drawn true s
      ∧ (setChains (localKernel g raw N) drawn s.nChains s).2 = none := by
  have e : setChains (localKernel g raw N) drawn s.nChains s = reset (localKernel g raw N) drawn true s := by
    rw [setChains, if_neg (by omega)]
  refine ⟨e, ?_⟩
  rw [e]
  obtain ⟨_, s', h1, _⟩ := C244_reset g raw hne N drawn s h h0
  rw [h1]

/-- "an array of `n_samples` samples, after a reset": for `n_samples = 0` the result is None and the states are not reset. -/
theorem C245_zero_samples_refuted (g : Rng K ℝ) (lp : Row → ℝ) (kern : Kernel K) (drawn : Row) (init : Bool) (s : Mh K ℝ) :
    generateSamples g Real.exp lp kern drawn 0 init s = (s, .ok none) := by
  rw [generateSamples, if_pos rfl]

/-- for positive numbers it is `reset(init_random)` followed by `generate_samples` without reset. -/
theorem C245_zero_samples_partial (g : Rng K ℝ) (lp : Row → ℝ) (kern : Kernel K) (drawn : Row) (n : Nat) (hn : 0 < n) (init : Bool) (s s' : Mh K ℝ)
    (h : reset kern drawn init s = (s', none)) :
    generateSamples g Real.exp lp kern drawn n init s = generateSamples g Real.exp lp kern drawn n false s' := by
  rw [generateSamples, if_neg (by omega), h, generateSamples, if_neg (by omega)]
  rfl

/-- "a positive integer for sweep_size": zero is accepted, and all samples are then the present states; a negative number raises, but stays, with the
    same effect. -/
theorem C245_sweep_refuted (g : Rng K ℝ) (lp : Row → ℝ) (kern : Kernel K) (drawn : Row) (n : Nat) (hn : 0 < n) (m : Int) (hm : m ≤ 0) (s : Mh K ℝ) :
    (setSweep (some m) s).2 = (if m < 0 then some .valueError else none)
    ∧ (generateSamples g Real.exp lp kern drawn n false (setSweep (some m) s).1).2 = .ok (some (List.replicate n s.state)) := by
  refine ⟨rfl, ?_⟩
  have key : ∀ (n : Nat) (w : Walker K ℝ), sweeps g Real.exp lp kern s.pow m n w = List.replicate n w.rows := by
    intro n w
    induction n generalizing w with
    | zero => rfl
    | succ n ih =>
      have : oneSweep g Real.exp lp kern s.pow m w = w := by
        rw [oneSweep, Int.toNat_of_nonpos hm]
        rfl
      rw [sweeps]
      simp only [this]
      rw [ih, List.replicate_succ]
  rw [generateSamples, if_neg (by omega)]
  simp only [reset, setSweep, metropolisKernel, Option.getD]
  simp [key]

/-- positive numbers are stored, None means the number of sites. -/
theorem C245_sweep_partial (n : Option Int) (s : Mh K ℝ) (h : 0 ≤ n.getD (s.shape.2 : Int)) :
    setSweep n s = ({ s with sweep := n.getD (s.shape.2 : Int) }, none) := by
  rw [setSweep, if_neg (by omega)]

end

/-- which samplers exist for JAX machines: local and exchange moves without parallel tempering; all others raise NotImplementedError. For other machines all
    exist, without the argument `rng_key`. -/
theorem C244_versions (jaxMachine : Bool) (k : Kind) (pt hasKey : Bool) :
    makeSampler jaxMachine k pt hasKey =
      if jaxMachine then (if (k = .localMoves ∨ k = .exchange) ∧ pt = false then .ok .jax else .error .notImplemented)
      else if hasKey then .error .typeError else .ok .numpy := by
  cases jaxMachine <;> cases k <;> cases pt <;> cases hasKey <;> rfl

/-- the documented samplers exist for every machine: not for JAX machines. -/
theorem C245_versions_refuted : ¬ ∀ jaxMachine k pt, ∃ v, makeSampler jaxMachine k pt false = .ok v := by
  intro h
  obtain ⟨v, hv⟩ := h true .hamiltonian false
  rw [C244_versions] at hv
  simp at hv

/-! ## Examples -/

/-- a generator: integers from a counter. -/
noncomputable def exRng : Rng Nat ℝ where
  split k n i := 7 * k + n + i
  randint k n i := (k + i) % n
  uniform _ _ := 1 / 2

theorem exRng_inRange : InRange exRng := fun _ _ _ h => Nat.mod_lt _ h

example := C244_local exRng exRng_inRange [1, -1, 0] (by decide) (by decide) [0, 1] (by decide) (by decide)
example := C244_exchange exRng exRng_inRange [(0, 2), (1, 2)] (by decide) [1, -1, 1] (by decide) 5
example := C244_local_stationary [1, -1] (by decide) (by decide) 1 (by decide) {[1], [-1]} (by
  intro σ
  rcases σ with _ | ⟨a, _ | ⟨b, l⟩⟩ <;> simp) 2 (fun σ => (σ.sum : ℝ)) 4
example := C244_exchange_stationary [(0, 2), (1, 2)] (by decide) 3 (by decide) ([1, -1, 1] : List ℤ).permutations.toFinset
  (fun σ h => (List.mem_permutations.1 (List.mem_toFinset.1 h)).length_eq)
  (fun σ h τ h' => List.mem_toFinset.2 (List.mem_permutations.2 (h'.trans (List.mem_permutations.1 (List.mem_toFinset.1 h))))) 2 (fun σ => (σ.sum : ℝ)) 4
example := (C244_construct exRng [1, -1] (by decide) 3 [] 2 none none 5).1 (by decide) (by simp)
example := C245_n_chains_refuted exRng [1, -1] 3 [] ⟨2, (2, 3), 2, 3, [], 0, none⟩ rfl 4 (by decide) (by decide)
example := C245_exchange_reset_partial exRng [(0, 1)] ⟨2, (2, 3), 2, 3, [], 0, none⟩ [1, 1, -1] rfl (by decide) rfl

end Verif.LegacyJs
