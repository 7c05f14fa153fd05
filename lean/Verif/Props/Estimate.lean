import Verif.Lemmas.Estimate
import Verif.Props.Ergodic
import Verif.Props.LocalValues
import Verif.Props.Gradient

/-! C204: averages over Metropolis samples converge to expectation values, energies and gradients. -/

namespace Verif.Metro

open Verif.Markov Finset

section general
variable {X D : Type} [DecidableEq X] [Fintype D]

/-- Averages of any function over the samples of independent chains: if the chain of the samples (of `nSweeps`
    passes each) can reach every configuration, the mean-square deviation from the mean with density
    `|psi|^pow` is `O(1/(c n) + 1/n²)` for `c` chains with `n` samples, for all starting configurations. -/
theorem C204_estimates (S : Finset X) (w : X → D → ℝ) (prop : D → X → X) (corr : D → X → Option ℝ)
    (lp : X → ℝ) (hb : Balanced S w prop corr) (nSweeps : Nat)
    (hi : Irreducible S (kpow S (kernel w (step lp prop corr)) nSweeps)) (f : X → ℂ) :
    Estimates S (fun x => Real.exp (lp x)) (kpow S (kernel w (step lp prop corr)) nSweeps) f := by
  obtain ⟨h1, _, h3⟩ := C44_stationary S w prop corr lp hb nSweeps
  exact estimates_of_irreducible h1 h3 (fun _ _ => Real.exp_pos _) hi f

/-- The probability of a deviation of `ε` or more is at most the bound of the mean-square deviation over
    `ε²`. -/
theorem C204_probability (S : Finset X) (π : X → ℝ) (P : X → X → ℝ) (hs : Stochastic S P) (f : X → ℂ)
    (h : Estimates S π P f) :
    ∃ A B : ℝ, ∀ starts : List X, starts ≠ [] → (∀ x ∈ starts, x ∈ S) → ∀ n : Nat, 0 < n → ∀ ε : ℝ, 0 < ε →
      chainsE S P n starts (fun trs => if ε ≤ ‖average f trs - meanOf S π f‖ then 1 else 0)
        ≤ (A / ((starts.length : ℝ) * n) + B / (n : ℝ) ^ 2) / ε ^ 2 := by
  obtain ⟨A, B, h⟩ := h
  refine ⟨A, B, fun starts h1 h2 n hn ε hε => ?_⟩
  have hm := h starts h1 h2 n hn
  rw [le_div_iff₀ (by positivity), mul_comm]
  rw [← chainsE_mul]
  refine le_trans (chainsE_mono hs n starts h2 _ _ fun trs _ _ => ?_) hm
  split
  · next hle => rw [mul_one]; exact pow_le_pow_left₀ hε.le hle 2
  · rw [mul_zero]; positivity

end general

theorem exp_two (z : ℂ) : Real.exp z.re ^ 2 = Complex.normSq (Complex.exp z) := by
  rw [Complex.normSq_eq_norm_sq, Complex.norm_exp]

/-- Local moves on an unconstrained space with at least two local values. -/
theorem C204_local (ls : List Int) (hs : ls.Pairwise (· < ·)) (h2 : 2 ≤ ls.length) (N : Nat)
    (hN : 0 < N) (S : Finset (List Int)) (hS : ∀ σ, σ ∈ S ↔ σ.length = N ∧ ∀ v ∈ σ, v ∈ ls)
    (pow : Nat) (logPsi : List Int → ℝ) (nSweeps : Nat) (hn : nSweeps ≠ 0)
    (h : 3 ≤ ls.length ∨ (pow ≠ 0 ∧ ∃ σ ∈ S, ∃ τ ∈ S, logPsi σ ≠ logPsi τ) ∨ nSweeps % 2 = 1)
    (f : List Int → ℂ) :
    Estimates S (fun σ => Real.exp (logPsi σ) ^ pow)
      (kpow S (localKernel ls N fun σ => pow * logPsi σ) nSweeps) f := by
  have hb := C44_local_balanced ls hs h2 N hN S hS
  have hp : ∀ σ ∈ S, 0 < Real.exp (logPsi σ) ^ pow := fun _ _ => by positivity
  have hi : Irreducible S (kpow S (localKernel ls N fun σ => pow * logPsi σ) nSweeps) := by
    rcases h with h | h | h
    · exact (C202_local_converges ls hs h2 N hN S hS pow logPsi (Or.inl h) nSweeps (by omega)).irreducible hp
    · exact (C202_local_converges ls hs h2 N hN S hS pow logPsi (Or.inr h) nSweeps (by omega)).irreducible hp
    · exact (C202_local_odd ls hs h2 N hN S hS pow logPsi nSweeps h).1
  have := C204_estimates S _ _ _ (fun σ => pow * logPsi σ) hb nSweeps hi f
  simpa only [Real.exp_nat_mul] using this

/-- Exchange moves with a connected graph of clusters, on the rearrangements of a configuration. -/
theorem C204_exchange (clusters : List (Int × Int)) (hne : clusters ≠ []) (N : Nat)
    (hcl : ∀ c ∈ clusters, (-(N : Int) ≤ c.1 ∧ c.1 < N) ∧ (-(N : Int) ≤ c.2 ∧ c.2 < N))
    (hcon : SitesConnected clusters N) (σ₀ : List Int) (hl : σ₀.length = N) (S : Finset (List Int))
    (hS : ∀ τ, τ ∈ S ↔ τ.Perm σ₀) (pow : Nat) (logPsi : List Int → ℝ) (nSweeps : Nat) (hn : 0 < nSweeps)
    (h : ¬ σ₀.Nodup ∨ (pow ≠ 0 ∧ ∃ σ ∈ S, ∃ τ ∈ S, logPsi σ ≠ logPsi τ) ∨ nSweeps = 1)
    (f : List Int → ℂ) :
    Estimates S (fun σ => Real.exp (logPsi σ) ^ pow)
      (kpow S (exchangeKernel clusters fun σ => pow * logPsi σ) nSweeps) f := by
  have hlen : ∀ σ ∈ S, σ.length = N := fun σ hσ => by rw [((hS σ).1 hσ).length_eq, hl]
  have hperm : ∀ σ ∈ S, ∀ τ, τ.Perm σ → τ ∈ S := fun σ hσ τ h => (hS τ).2 (h.trans ((hS σ).1 hσ))
  have hb := C44_exchange_balanced clusters hne N hcl S hlen hperm
  have hp : ∀ σ ∈ S, 0 < Real.exp (logPsi σ) ^ pow := fun _ _ => by positivity
  have hi : Irreducible S (kpow S (exchangeKernel clusters fun σ => pow * logPsi σ) nSweeps) := by
    rcases h with h | h | h
    · exact (C202_exchange_converges clusters hne N hcl hcon σ₀ hl S hS pow logPsi (Or.inl h) nSweeps hn).irreducible hp
    · exact (C202_exchange_converges clusters hne N hcl hcon σ₀ hl S hS pow logPsi (Or.inr h) nSweeps hn).irreducible hp
    · subst h
      intro x hx y hy
      obtain ⟨m, hm⟩ := (C202_exchange_irreducible clusters hne N hcl hcon σ₀ hl S hS pow logPsi).1 x hx y hy
      exact ⟨m, by rw [kpow_mul 1 m x hx y, Nat.one_mul]; exact hm⟩
  have := C204_estimates S _ _ _ (fun σ => pow * logPsi σ) hb nSweeps hi f
  simpa only [Real.exp_nat_mul] using this

/-- Hamiltonian sampling with an operator that connects all of `S` and has a diagonal element somewhere. -/
theorem C204_hamiltonian {X : Type} [DecidableEq X] (conn : X → List X) (M : Nat) (S : Finset X)
    (hM : ∀ x ∈ S, (conn x).length ≤ M) (hne : ∀ x ∈ S, conn x ≠ [])
    (hcl : ∀ x ∈ S, ∀ y ∈ conn x, y ∈ S)
    (hsym : ∀ x ∈ S, ∀ y ∈ S, x ≠ y → (conn x).count y = (conn y).count x)
    (hcon : ∀ x ∈ S, ∀ y ∈ S, Relation.ReflTransGen (fun a b => b ∈ conn a) x y)
    (hd : ∃ x ∈ S, x ∈ conn x)
    (pow : Nat) (logPsi : X → ℝ) (nSweeps : Nat) (hn : 0 < nSweeps) (f : X → ℂ) :
    Estimates S (fun x => Real.exp (logPsi x) ^ pow)
      (kpow S (kernel (hamW conn M) (step (fun x => pow * logPsi x) (hamProp conn M) (hamCorr conn M))) nSweeps) f := by
  have hb := C53_balanced conn M S hM hne hcl hsym
  have hi := ((C202_hamiltonian conn M S hM hne hcl hsym hcon pow logPsi).2.2.2 hd nSweeps hn).irreducible
    (fun x _ => by positivity)
  have := C204_estimates S _ _ _ (fun x => pow * logPsi x) hb nSweeps hi f
  simpa only [Real.exp_nat_mul] using this

/-! ### energies -/

section energy
open Verif.LocalOp Verif.LocalValues

variable {N : Nat} {α : Type} [LinearOrder α] [Inhabited α] {hi : Fin N → List α} {cut : Cutoff ℂ}

/-- `⟨ψ|O|ψ⟩/⟨ψ|ψ⟩` over the basis of the space. -/
noncomputable def expectation (hi : Fin N → List α) (O : (Fin N → α) → (Fin N → α) → ℂ) (logVal : (Fin N → α) → ℂ) : ℂ :=
  (∑ x ∈ basisStates hi, ∑ x' ∈ basisStates hi, star (Complex.exp (logVal x)) * O x x' * Complex.exp (logVal x'))
    / ((∑ x ∈ basisStates hi, Complex.normSq (Complex.exp (logVal x)) : ℝ) : ℂ)

/-- From samples to expectation values: chains on configurations `S` which are the basis states of the space
    (through `c`), sampling `|psi|²`. The local values of all samples of all chains can be computed, and their
    mean over all ranks, for every division of the samples into equal shards, deviates from
    `⟨ψ|O|ψ⟩/⟨ψ|ψ⟩` by `O(1/(c n) + 1/n²)` in mean square. -/
theorem C204_expectation {X : Type} [DecidableEq X] (hid : Ideal cut) (hsp : SortedSpace hi) (op : LOp ℂ α N) (hop : Built cut hi op)
    (gm : Nat → ℂ) (gx : Nat → Fin N → α) (logVal : (Fin N → α) → ℂ) (S : Finset X) (c : X → Fin N → α)
    (hinj : Set.InjOn c S) (hc : S.image c = basisStates hi) (P : X → X → ℝ) (hs : Stochastic S P)
    (hest : ∀ f, Estimates S (fun x => Real.exp ((logVal (c x)).re) ^ 2) P f)
    (value : List (List X) → ℂ)
    (hval : ∀ trs out, localValues hi op gm gx logVal 2 N (trs.flatten.map c) none = .ok out →
      ∃ L shards, Verif.Stats.Equal L shards ∧ shards.flatten = out ∧ value trs = Verif.Stats.mean shards) :
    (∀ trs : List (List X), (∀ tr ∈ trs, ∀ x ∈ tr, x ∈ S) →
      ∃ out, localValues hi op gm gx logVal 2 N (trs.flatten.map c) none = .ok out) ∧
    ∃ A B : ℝ, ∀ starts : List X, starts ≠ [] → (∀ x ∈ starts, x ∈ S) → ∀ n : Nat, 0 < n →
      chainsE S P n starts (fun trs => ‖value trs - expectation hi (matrixOf hi op) logVal‖ ^ 2)
        ≤ A / ((starts.length : ℝ) * n) + B / (n : ℝ) ^ 2 := by
  have hvalid : ∀ trs : List (List X), (∀ tr ∈ trs, ∀ x ∈ tr, x ∈ S) →
      ∀ y ∈ trs.flatten.map c, Valid hi y := by
    intro trs h y hy
    obtain ⟨x, hx, rfl⟩ := List.mem_map.1 hy
    obtain ⟨tr, h1, h2⟩ := List.mem_flatten.1 hx
    rw [← Verif.LocalValues.mem_basis, ← hc]
    exact Finset.mem_image_of_mem c (h tr h1 x h2)
  refine ⟨fun trs h => ⟨_, C93_local_values hid hsp op hop gm gx logVal _ (hvalid trs h)⟩, ?_⟩
  let e : (Fin N → α) → ℂ := fun x =>
    (∑ x' ∈ basisStates hi, matrixOf hi op x x' * Complex.exp (logVal x')) / Complex.exp (logVal x)
  have hmean : meanOf S (fun x => Real.exp ((logVal (c x)).re) ^ 2) (fun x => e (c x))
      = expectation hi (matrixOf hi op) logVal := by
    rw [meanOf, expectation, ← hc]
    congr 1
    · rw [Finset.sum_image hinj]
      refine Finset.sum_congr rfl fun x _ => ?_
      rw [exp_two]
      simp only [e]
      rw [hc, Complex.normSq_eq_conj_mul_self, Complex.star_def, mul_div_assoc', mul_comm _ (Complex.exp _),
        mul_assoc, mul_div_cancel_left₀ _ (Complex.exp_ne_zero _), Finset.mul_sum]
      exact Finset.sum_congr rfl fun y _ => by ring
    · rw [Finset.sum_image hinj]
      congr 1
      exact Finset.sum_congr rfl fun x _ => exp_two _
  obtain ⟨A, B, h⟩ := hest fun x => e (c x)
  refine ⟨A, B, fun starts h1 h2 n hn => ?_⟩
  rw [hmean] at h
  refine le_trans (le_of_eq (chainsE_congr hs n starts h2 fun trs _ ht => ?_)) (h starts h1 h2 n hn)
  obtain ⟨L, shards, hL, hfl, hv⟩ := hval trs _ (C93_local_values hid hsp op hop gm gx logVal _
    (hvalid trs fun tr htr => (ht tr htr).2))
  rw [hv, Verif.Stats.C54_mean L shards hL, hfl]
  simp only [Verif.Stats.avg, average, List.map_map, List.length_map]
  rfl

/-- configuration of a row. -/
def rowConf (N : Nat) (σ : List Int) : Fin N → Int := fun i => σ.getD i 0

/-- Local moves, spins or bosons with the same local values on every site, `machine_pow = 2`: the energy
    estimated from the samples. -/
theorem C204_local_expectation {cut : Cutoff ℂ} (hid : Ideal cut) (ls : List Int) (hs : ls.Pairwise (· < ·)) (h2 : 2 ≤ ls.length) (N : Nat)
    (hN : 0 < N) (S : Finset (List Int)) (hS : ∀ σ, σ ∈ S ↔ σ.length = N ∧ ∀ v ∈ σ, v ∈ ls)
    (op : LOp ℂ Int N) (hop : Built cut (fun _ => ls) op) (gm : Nat → ℂ) (gx : Nat → Fin N → Int)
    (logVal : (Fin N → Int) → ℂ) (nSweeps : Nat) (hn : nSweeps ≠ 0)
    (h : 3 ≤ ls.length ∨ (∃ σ ∈ S, ∃ τ ∈ S, (logVal (rowConf N σ)).re ≠ (logVal (rowConf N τ)).re) ∨ nSweeps % 2 = 1)
    (value : List (List (List Int)) → ℂ)
    (hval : ∀ trs out, localValues (fun _ => ls) op gm gx logVal 2 N (trs.flatten.map (rowConf N)) none = .ok out →
      ∃ L shards, Verif.Stats.Equal L shards ∧ shards.flatten = out ∧ value trs = Verif.Stats.mean shards) :
    let P := kpow S (localKernel ls N fun σ => (2 : Nat) * (logVal (rowConf N σ)).re) nSweeps
    (∀ trs : List (List (List Int)), (∀ tr ∈ trs, ∀ x ∈ tr, x ∈ S) →
      ∃ out, localValues (fun _ => ls) op gm gx logVal 2 N (trs.flatten.map (rowConf N)) none = .ok out) ∧
    ∃ A B : ℝ, ∀ starts : List (List Int), starts ≠ [] → (∀ x ∈ starts, x ∈ S) → ∀ n : Nat, 0 < n →
      chainsE S P n starts (fun trs => ‖value trs - expectation (fun _ => ls) (matrixOf (fun _ => ls) op) logVal‖ ^ 2)
        ≤ A / ((starts.length : ℝ) * n) + B / (n : ℝ) ^ 2 := by
  have hget : ∀ σ ∈ S, ∀ i : Fin N, σ[i.1]? = some (rowConf N σ i) := fun σ hσ i => by
    have hl := ((hS σ).1 hσ).1
    have : i.1 < σ.length := by rw [hl]; exact i.2
    simp [rowConf, List.getD, this]
  have hinj : Set.InjOn (rowConf N) (S : Set (List Int)) := by
    intro σ hσ τ hτ e
    refine List.ext_getElem? fun i => ?_
    by_cases hi : i < N
    · rw [hget σ hσ ⟨i, hi⟩, hget τ hτ ⟨i, hi⟩, e]
    · have h1 := ((hS σ).1 hσ).1
      have h2 := ((hS τ).1 hτ).1
      rw [List.getElem?_eq_none (by omega), List.getElem?_eq_none (by omega)]
  have hc : S.image (rowConf N) = basisStates (fun _ : Fin N => ls) := by
    ext x
    rw [Verif.LocalValues.mem_basis, Finset.mem_image]
    constructor
    · rintro ⟨σ, hσ, rfl⟩ i
      exact ((hS σ).1 hσ).2 _ (List.mem_of_getElem? (hget σ hσ i))
    · intro hx
      refine ⟨List.ofFn x, (hS _).2 ⟨by simp, fun v hv => ?_⟩, ?_⟩
      · obtain ⟨i, rfl⟩ := (List.mem_ofFn' x v).1 hv
        exact hx i
      · funext i
        simp [rowConf, List.getD]
  have hb := C44_local_balanced ls hs h2 N hN S hS
  refine C204_expectation hid (fun _ => hs) op hop gm gx logVal S (rowConf N) hinj hc _
    ((kernel_stochastic S _ _ _ _ hb).kpow nSweeps) (fun f => ?_) value hval
  exact C204_local ls hs h2 N hN S hS 2 (fun σ => (logVal (rowConf N σ)).re) nSweeps hn
    (h.imp id (Or.imp (fun h => ⟨by decide, h⟩) id)) f

end energy

/-! ### gradients -/

section gradient
open Verif.Vjp Verif.Stats

variable {X Q : Type} [DecidableEq X]

theorem avg_eq_average (f : X → ℂ) (trs : List (List X)) : avg (trs.flatten.map f) = average f trs := by
  rw [avg, average, List.length_map]

theorem average_norm_le (S : Finset X) (f : X → ℂ) (trs : List (List X)) (h : ∀ tr ∈ trs, ∀ x ∈ tr, x ∈ S) :
    ‖average f trs‖ ≤ ∑ x ∈ S, ‖f x‖ := by
  have hK : 0 ≤ ∑ x ∈ S, ‖f x‖ := Finset.sum_nonneg fun x _ => norm_nonneg _
  have hmem : ∀ x ∈ trs.flatten, x ∈ S := fun x hx => by
    obtain ⟨tr, h1, h2⟩ := List.mem_flatten.1 hx
    exact h tr h1 x h2
  have hsum : ∀ l : List X, (∀ x ∈ l, x ∈ S) → ‖(l.map f).sum‖ ≤ l.length * ∑ x ∈ S, ‖f x‖ := by
    intro l hl
    induction l with
    | nil => simp
    | cons a t ih =>
      have h1 := ih fun x hx => hl x (by simp [hx])
      have h2 : ‖f a‖ ≤ ∑ x ∈ S, ‖f x‖ :=
        Finset.single_le_sum (f := fun x => ‖f x‖) (fun x _ => norm_nonneg _) (hl a (by simp))
      have h3 := norm_add_le (f a) (t.map f).sum
      simp only [List.map_cons, List.sum_cons, List.length_cons]
      push_cast
      linarith
  rw [average, norm_div, Complex.norm_natCast]
  rcases Nat.eq_zero_or_pos trs.flatten.length with h0 | h0
  · rw [h0]; simpa using hK
  · rw [div_le_iff₀ (by exact_mod_cast h0), mul_comm]
    exact hsum _ hmem

theorem sq_three (a b c : ℝ) : (a + b + c) ^ 2 ≤ 3 * (a ^ 2 + b ^ 2 + c ^ 2) := by
  nlinarith [sq_nonneg (a - b), sq_nonneg (a - c), sq_nonneg (b - c)]

/-- The gradient computed from the samples (local values `E` and log-derivatives `Dl`), for every division of
    the samples into equal shards over the ranks, deviates from the covariance with density `π` by
    `O(1/(c n) + 1/n²)` in mean square. -/
theorem C204_covariance (S : Finset X) (π : X → ℝ) (P : X → X → ℝ) (hs : Stochastic S P)
    (hest : ∀ f, Estimates S π P f) (E : X → ℂ) (Dl : X → Q → ℂ) (k : Q)
    (divide : List (List X) → List (List X))
    (hdiv : ∀ trs, (divide trs).flatten = trs.flatten ∧ ∃ L, Equal L (divide trs)) :
    ∃ A B : ℝ, ∀ starts : List X, starts ≠ [] → (∀ x ∈ starts, x ∈ S) → ∀ n : Nat, 0 < n →
      chainsE S P n starts (fun trs =>
          ‖gradHermitian true ((divide trs).map fun a => a.map fun x => (E x, Dl x)) k
            - (meanOf S π (fun x => (starRingEnd ℂ) (Dl x k) * E x)
              - meanOf S π (fun x => (starRingEnd ℂ) (Dl x k)) * meanOf S π E)‖ ^ 2)
        ≤ A / ((starts.length : ℝ) * n) + B / (n : ℝ) ^ 2 := by
  obtain ⟨A1, B1, h1⟩ := hest fun x => (starRingEnd ℂ) (Dl x k) * E x
  obtain ⟨A2, B2, h2⟩ := hest fun x => (starRingEnd ℂ) (Dl x k)
  obtain ⟨A3, B3, h3⟩ := hest E
  set m1 := meanOf S π (fun x => (starRingEnd ℂ) (Dl x k) * E x) with hm1
  set m2 := meanOf S π (fun x => (starRingEnd ℂ) (Dl x k)) with hm2
  set m3 := meanOf S π E with hm3
  set K : ℝ := ∑ x ∈ S, ‖E x‖ with hK
  have hK0 : 0 ≤ K := Finset.sum_nonneg fun x _ => norm_nonneg _
  refine ⟨3 * (A1 + K ^ 2 * A2 + ‖m2‖ ^ 2 * A3), 3 * (B1 + K ^ 2 * B2 + ‖m2‖ ^ 2 * B3),
    fun starts hne hin n hn => ?_⟩
  have b1 := h1 starts hne hin n hn
  have b2 := h2 starts hne hin n hn
  have b3 := h3 starts hne hin n hn
  have key : chainsE S P n starts (fun trs =>
        ‖gradHermitian true ((divide trs).map fun a => a.map fun x => (E x, Dl x)) k - (m1 - m2 * m3)‖ ^ 2)
      ≤ chainsE S P n starts (fun trs => 3 * ((‖average (fun x => (starRingEnd ℂ) (Dl x k) * E x) trs - m1‖ ^ 2
          + K ^ 2 * ‖average (fun x => (starRingEnd ℂ) (Dl x k)) trs - m2‖ ^ 2)
          + ‖m2‖ ^ 2 * ‖average E trs - m3‖ ^ 2)) := by
    refine chainsE_mono hs n starts hin _ _ fun trs hl ht => ?_
    obtain ⟨hd1, L, hd2⟩ := hdiv trs
    have hpos : trs.flatten ≠ [] := by
      have h0 : 0 < trs.flatten.length := by
        rw [flatten_len fun tr htr => (ht tr htr).1, hl]
        exact Nat.mul_pos (List.length_pos_iff.2 hne) hn
      exact List.ne_nil_of_length_pos h0
    have hL' : Equal L ((divide trs).map fun a => a.map fun x => (E x, Dl x)) := by
      intro a ha
      rcases List.mem_map.1 ha with ⟨b, hb, rfl⟩
      rw [List.length_map, hd2 b hb]
    rw [C59_covariance true L _ hL', if_pos rfl, map_flatten' (fun x => (E x, Dl x)), hd1,
      cov_eq _ (by simpa using hpos)]
    simp only [List.map_map]
    have e1 := avg_eq_average (fun x => (starRingEnd ℂ) (Dl x k) * E x) trs
    have e2 := avg_eq_average (fun x => (starRingEnd ℂ) (Dl x k)) trs
    have e3 := avg_eq_average E trs
    rw [show ((fun x : ℂ × (Q → ℂ) => (starRingEnd ℂ) (x.2 k) * x.1) ∘ fun x => (E x, Dl x))
        = fun x => (starRingEnd ℂ) (Dl x k) * E x from rfl,
      show ((fun x : ℂ × (Q → ℂ) => (starRingEnd ℂ) (x.2 k)) ∘ fun x => (E x, Dl x))
        = fun x => (starRingEnd ℂ) (Dl x k) from rfl,
      show ((Prod.fst : ℂ × (Q → ℂ) → ℂ) ∘ fun x => (E x, Dl x)) = E from rfl, e1, e2, e3]
    set a1 := average (fun x => (starRingEnd ℂ) (Dl x k) * E x) trs
    set a2 := average (fun x => (starRingEnd ℂ) (Dl x k)) trs
    set a3 := average E trs with ha3
    have hb3 : ‖a3‖ ≤ K := average_norm_le S E trs fun tr htr => (ht tr htr).2
    have hdec : a1 - a2 * a3 - (m1 - m2 * m3) = (a1 - m1) + (-(a2 - m2) * a3) + (-m2 * (a3 - m3)) := by ring
    have hn1 : ‖a1 - a2 * a3 - (m1 - m2 * m3)‖ ≤ ‖a1 - m1‖ + K * ‖a2 - m2‖ + ‖m2‖ * ‖a3 - m3‖ := by
      rw [hdec]
      refine (norm_add₃_le).trans ?_
      rw [norm_mul, norm_mul, norm_neg, norm_neg]
      have : ‖a2 - m2‖ * ‖a3‖ ≤ K * ‖a2 - m2‖ := by
        rw [mul_comm]; exact mul_le_mul_of_nonneg_right hb3 (norm_nonneg _)
      linarith
    refine (pow_le_pow_left₀ (norm_nonneg _) hn1 2).trans ((sq_three _ _ _).trans (le_of_eq ?_))
    ring
  refine key.trans ?_
  rw [chainsE_mul, chainsE_add, chainsE_add, chainsE_mul, chainsE_mul]
  have c2 := mul_le_mul_of_nonneg_left b2 (sq_nonneg K)
  have c3 := mul_le_mul_of_nonneg_left b3 (sq_nonneg ‖m2‖)
  have e : 3 * (A1 + K ^ 2 * A2 + ‖m2‖ ^ 2 * A3) / ((starts.length : ℝ) * n)
      + 3 * (B1 + K ^ 2 * B2 + ‖m2‖ ^ 2 * B3) / (n : ℝ) ^ 2
      = 3 * ((A1 / ((starts.length : ℝ) * n) + B1 / (n : ℝ) ^ 2)
        + K ^ 2 * (A2 / ((starts.length : ℝ) * n) + B2 / (n : ℝ) ^ 2)
        + ‖m2‖ ^ 2 * (A3 / ((starts.length : ℝ) * n) + B3 / (n : ℝ) ^ 2)) := by ring
  rw [e]
  linarith

/-- Hermitian operators `H` on the configurations `S`, complex parameters, log-amplitudes `l` holomorphic in
    parameter `k`: the gradient computed from Metropolis samples of `|psi|²` converges in mean square to the
    `F` with which `2 Re(conj(v) F)` is the derivative of the energy in every complex direction `v`. -/
theorem C204_gradient (S : Finset X) (hne : S.Nonempty) (P : X → X → ℝ) (hs : Stochastic S P)
    (H : X → X → ℂ) (hH : ∀ s t, H t s = (starRingEnd ℂ) (H s t))
    (l : ℂ → X → ℂ) (Dl : X → Q → ℂ) (w : ℂ) (k : Q) (hD : ∀ s ∈ S, HasDerivAt (fun x => l x s) (Dl s k) w)
    (hest : ∀ f, Estimates S (fun x => Real.exp ((l w x).re) ^ 2) P f)
    (divide : List (List X) → List (List X))
    (hdiv : ∀ trs, (divide trs).flatten = trs.flatten ∧ ∃ L, Equal L (divide trs)) :
    ∃ F : ℂ, (∀ v : ℂ, HasDerivAt (fun t : ℝ => energy (fun a b : S => H a b) (fun a : S => l (w + t * v) a))
        (2 * ((starRingEnd ℂ) v * F).re) 0) ∧
      ∃ A B : ℝ, ∀ starts : List X, starts ≠ [] → (∀ x ∈ starts, x ∈ S) → ∀ n : Nat, 0 < n →
        chainsE S P n starts (fun trs =>
            ‖gradHermitian true ((divide trs).map fun a =>
              a.map fun x => (∑ t ∈ S, H x t * Complex.exp (l w t - l w x), Dl x)) k - F‖ ^ 2)
          ≤ A / ((starts.length : ℝ) * n) + B / (n : ℝ) ^ 2 := by
  have : Nonempty S := ⟨⟨hne.choose, hne.choose_spec⟩⟩
  let E : X → ℂ := fun x => ∑ t ∈ S, H x t * Complex.exp (l w t - l w x)
  let π : X → ℝ := fun x => Real.exp ((l w x).re) ^ 2
  refine ⟨meanOf S π (fun x => (starRingEnd ℂ) (Dl x k) * E x)
      - meanOf S π (fun x => (starRingEnd ℂ) (Dl x k)) * meanOf S π E, fun v => ?_,
    C204_covariance S π P hs hest E Dl k divide hdiv⟩
  have hE : ∀ s : S, eLoc (fun a b : S => H a b) (fun a : S => l w a) s = E s := fun s => by
    rw [eLoc]
    exact Finset.sum_coe_sort S (fun t => H s t * Complex.exp (l w t - l w s))
  have hZ : ∑ t : S, Complex.normSq (Complex.exp (l w t)) = ∑ x ∈ S, π x := by
    rw [Finset.sum_coe_sort S (fun t => Complex.normSq (Complex.exp (l w t)))]
    exact Finset.sum_congr rfl fun x _ => (exp_two _).symm
  have hmean : ∀ g : X → ℂ, ∑ s : S, (prob (fun a : S => l w a) s : ℂ) * g s = meanOf S π g := by
    intro g
    rw [meanOf, Finset.sum_div, ← Finset.sum_coe_sort S]
    refine Finset.sum_congr rfl fun s _ => ?_
    rw [prob, hZ]
    simp only [π]
    rw [← exp_two]
    push_cast
    ring
  have hen : (energy (fun a b : S => H a b) (fun a : S => l w a) : ℂ) = meanOf S π E := by
    rw [herm_energy (fun a b : S => H a b) (fun a b => hH a b) (fun a : S => l w a), ← hmean E]
    exact Finset.sum_congr rfl fun s _ => by rw [hE]
  have hdir : ∀ s : S, HasDerivAt (fun t : ℝ => l (w + t * v) s) (Dl s k * v) 0 := by
    intro s
    have h1 : HasDerivAt (fun t : ℝ => w + (t : ℂ) * v) v 0 := by
      have := ((Complex.ofRealCLM.hasDerivAt (x := (0 : ℝ))).mul_const v).const_add w
      simpa using this
    have h2 : HasDerivAt (fun x => l x s) (Dl s k) (w + ((0 : ℝ) : ℂ) * v) := by
      simpa using hD s.1 s.2
    exact h2.comp (0 : ℝ) h1
  have := hasDerivAt_energy (fun a b : S => H a b) (fun a b => hH a b) (fun t a => l (w + t * v) a)
    (fun s => Dl s k * v) 0 hdir
  refine this.congr_deriv ?_
  congr 2
  simp only [Complex.ofReal_zero, zero_mul, add_zero]
  rw [hen]
  have e : ∀ s : S, (prob (fun a : S => l w a) s : ℂ) * ((starRingEnd ℂ) (Dl s k * v)
        * (eLoc (fun a b : S => H a b) (fun a : S => l w a) s - meanOf S π E))
      = (starRingEnd ℂ) v * ((prob (fun a : S => l w a) s : ℂ) * ((starRingEnd ℂ) (Dl s k) * E s)
        - (prob (fun a : S => l w a) s : ℂ) * (starRingEnd ℂ) (Dl s k) * meanOf S π E) := fun s => by
    rw [hE, map_mul]; ring
  rw [Finset.sum_congr rfl fun s _ => e s, ← Finset.mul_sum, Finset.sum_sub_distrib, ← Finset.sum_mul,
    hmean (fun x => (starRingEnd ℂ) (Dl x k) * E x), hmean (fun x => (starRingEnd ℂ) (Dl x k))]

end gradient

/-! ### the hypotheses are met -/

example (f : List Int → ℂ) : Estimates twoSpins (fun σ => Real.exp (σ.sum : ℝ) ^ 2)
    (kpow twoSpins (localKernel [-1, 1] 2 fun σ => (2 : Nat) * (σ.sum : ℝ)) 2) f :=
  C204_local [-1, 1] (by decide) (by decide) 2 (by decide) twoSpins twoSpins_all 2
    (fun σ => (σ.sum : ℝ)) 2 (by decide)
    (Or.inr (Or.inl ⟨by decide, [1, 1], by decide, [-1, -1], by decide, by norm_num⟩)) f

/-- three spins on a line with two up, any wavefunction and number of sweeps. -/
example (logPsi : List Int → ℝ) (nSweeps : Nat) (hn : 0 < nSweeps) (f : List Int → ℂ) :
    Estimates (([1, 1, -1] : List Int).permutations.toFinset) (fun σ => Real.exp (logPsi σ) ^ 2)
      (kpow (([1, 1, -1] : List Int).permutations.toFinset)
        (exchangeKernel [(0, 1), (1, 2)] fun σ => (2 : Nat) * logPsi σ) nSweeps) f :=
  C204_exchange [(0, 1), (1, 2)] (by decide) 3 (by decide) line3_connected [1, 1, -1] rfl _
    (fun τ => by rw [List.mem_toFinset, List.mem_permutations]) 2 logPsi nSweeps hn (Or.inl (by decide)) f

/-- the way all samples of all chains are held by one rank. -/
example (trs : List (List (List Int))) :
    [trs.flatten].flatten = trs.flatten ∧ ∃ L, Verif.Stats.Equal L [trs.flatten] :=
  ⟨by simp, trs.flatten.length, fun a ha => by simp_all⟩

/-- an operator on one spin with a diagonal and an off-diagonal element, any wavefunction. -/
example (logPsi : Bool → ℝ) (f : Bool → ℂ) (nSweeps : Nat) (hn : 0 < nSweeps) :
    Estimates (univ : Finset Bool) (fun x => Real.exp (logPsi x) ^ 2)
      (kpow univ (kernel (hamW (fun x : Bool => [x, !x]) 2) (step (fun x => (2 : Nat) * logPsi x)
        (hamProp (fun x : Bool => [x, !x]) 2) (hamCorr (fun x : Bool => [x, !x]) 2))) nSweeps) f :=
  C204_hamiltonian (fun x : Bool => [x, !x]) 2 univ (fun _ _ => le_refl _) (fun _ _ => by simp)
    (fun _ _ _ _ => mem_univ _) (by decide)
    (fun x _ y _ => by
      refine .single ?_
      cases x <;> cases y <;> decide) ⟨true, mem_univ _, by decide⟩ 2 logPsi nSweeps hn f

/-- two spins 1/2, any operator built by the API, `log psi` the first spin, two sweeps. -/
example {cut : Verif.LocalOp.Cutoff ℂ} (hid : Verif.LocalOp.Ideal cut) (op : Verif.LocalOp.LOp ℂ Int 2)
    (hop : Verif.LocalOp.Built cut (fun _ => [-1, 1]) op) (gm : Nat → ℂ) (gx : Nat → Fin 2 → Int) :
    ∃ A B : ℝ, ∀ starts : List (List Int), starts ≠ [] → (∀ x ∈ starts, x ∈ twoSpins) → ∀ n : Nat, 0 < n →
      chainsE twoSpins (kpow twoSpins (localKernel [-1, 1] 2 fun σ => (2 : Nat) * (((rowConf 2 σ 0 : Int) : ℂ)).re) 2) n starts
        (fun trs => ‖Verif.Stats.mean [((Verif.LocalValues.localValues (fun _ => [-1, 1]) op gm gx (fun x => ((x 0 : Int) : ℂ)) 2 2
            (trs.flatten.map (rowConf 2)) none).toOption.getD [])]
          - expectation (fun _ => [-1, 1]) (Verif.LocalOp.matrixOf (fun _ => [-1, 1]) op) fun x => ((x 0 : Int) : ℂ)‖ ^ 2)
        ≤ A / ((starts.length : ℝ) * n) + B / (n : ℝ) ^ 2 :=
  (C204_local_expectation hid [-1, 1] (by decide) (by decide) 2 (by decide) twoSpins twoSpins_all op hop gm gx
    (fun x => ((x 0 : Int) : ℂ)) 2 (by decide)
    (Or.inr (Or.inl ⟨[1, 1], by decide, [-1, -1], by decide, by simp [rowConf]; norm_num⟩)) _
    (fun trs out h => ⟨out.length, [out], fun a ha => by simp_all, by simp, by rw [h]; rfl⟩)).2

/-- the log-amplitude `x s`, `s = 0, 1`, is holomorphic in `x`. -/
example (s : Bool) (w : ℂ) : HasDerivAt (fun x : ℂ => x * (if s then 1 else 0)) ((if s then 1 else 0) : ℂ) w := by
  simpa using (hasDerivAt_id w).mul_const (if s then (1 : ℂ) else 0)

end Verif.Metro
