import Verif.Model.Metropolis
import Verif.Spec.Markov
import Verif.Props.Flip
import Mathlib.Analysis.SpecialFunctions.Log.Basic
import Mathlib.Analysis.SpecialFunctions.Pow.Real

/-! C44: the Metropolis chains are reversible with respect to `|psi|^machine_pow`. -/

namespace Verif.Metro

open Verif.Markov MeasureTheory Finset

set_option linter.unusedSectionVars false

/-! ### the batched loop acts chain by chain -/

/-- the correction of chain `i`. -/
def corrAt {R : Type} (c : Option (List R)) (i : Nat) : Option (Option R) :=
  match c with
  | none => some none
  | some cs => (cs[i]?).map some

section batched
variable {X R K S : Type} [Field R] [LinearOrder R]

theorem doAccept_get (exp : R → R) (u new old : List R) (corr : Option (List R)) (i : Nat)
    (a b c : R) (k : Option R) (hu : u[i]? = some a) (hn : new[i]? = some b)
    (ho : old[i]? = some c) (hk : corrAt corr i = some k) :
    (doAccept exp u new old corr)[i]? = some (acceptOne exp a b c k) := by
  have hz : (u.zip (new.zip old))[i]? = some (a, b, c) := by
    rw [List.getElem?_zip_eq_some]
    exact ⟨hu, by rw [List.getElem?_zip_eq_some]; exact ⟨hn, ho⟩⟩
  cases corr with
  | none =>
    simp only [corrAt, Option.some.injEq] at hk
    subst hk
    simp [doAccept, hz]
  | some cs =>
    simp only [corrAt, Option.map_eq_some_iff] at hk
    obtain ⟨v, hv, rfl⟩ := hk
    simp [doAccept, List.getElem?_zipWith, hz, hv]

theorem whereRows_get {α : Type} (m : List Bool) (a b : List α) (i : Nat) (c : Bool) (x y : α)
    (hm : m[i]? = some c) (ha : a[i]? = some x) (hb : b[i]? = some y) :
    (whereRows m a b)[i]? = some (if c then x else y) := by
  have hz : (a.zip b)[i]? = some (x, y) := by
    rw [List.getElem?_zip_eq_some]; exact ⟨ha, hb⟩
  simp [whereRows, List.getElem?_zipWith, hm, hz]

/-- One pass of the jax loop moves chain `i` from its row `x` to the proposed row `y` or leaves it, by
    the acceptance test on `|psi|^pow`, independently of all other chains. -/
theorem C44_sweep_row (s : Sampler X R K S) (rs : S) (c : Scope X R K)
    (hcache : c.logProb = c.σ.map (fun z => s.pow * s.logPsi z)) (i : Nat) (x y : X) (u : R) (k : Option R)
    (hx : c.σ[i]? = some x)
    (hy : (s.rule.transition rs (s.rng.split3 c.key).2.1 c.σ).1[i]? = some y)
    (hk : corrAt (s.rule.transition rs (s.rng.split3 c.key).2.1 c.σ).2 i = some k)
    (hu : (s.rng.uniform (s.rng.split3 c.key).2.2 s.nChainsPerRank)[i]? = some u) :
    (sweep s rs c).σ[i]? = some (moveOne s.exp (fun z => s.pow * s.logPsi z) u x y k) := by
  have e : (fun z => s.pow * s.logPsi z) = logProb s := rfl
  rw [e] at hcache ⊢
  have hacc := doAccept_get s.exp _ ((s.rule.transition rs (s.rng.split3 c.key).2.1 c.σ).1.map
    (logProb s)) c.logProb _ i u (logProb s y) (logProb s x) k hu (by simp [hy])
    (by simp [hcache, hx]) hk
  simp only [sweep]
  rw [whereRows_get _ _ _ i _ y x hacc hy hx]
  simp [moveOne]

theorem whereRows_map {α β : Type} (f : α → β) (m : List Bool) (a b : List α) :
    whereRows m (a.map f) (b.map f) = (whereRows m a b).map f := by
  induction m generalizing a b with
  | nil => simp [whereRows]
  | cons c m ih =>
    cases a with
    | nil => simp [whereRows]
    | cons x a =>
      cases b with
      | nil => simp [whereRows]
      | cons y b =>
        have := ih a b
        simp only [whereRows, List.map_cons, List.zip_cons_cons, List.zipWith_cons_cons] at this ⊢
        rw [this]
        cases c <;> simp

/-- The cached log-probabilities are those of the current rows after every number of passes, so the
    acceptance test never uses an outdated denominator. -/
theorem C44_cache (s : Sampler X R K S) (rs : S) (n : Nat) (c : Scope X R K)
    (hcache : c.logProb = c.σ.map (fun z => s.pow * s.logPsi z)) :
    (sweeps s rs n c).logProb = (sweeps s rs n c).σ.map (fun z => s.pow * s.logPsi z) := by
  have e : (fun z => s.pow * s.logPsi z) = logProb s := rfl
  rw [e] at hcache ⊢
  induction n generalizing c with
  | zero => exact hcache
  | succ n ih =>
    refine ih (sweep s rs c) ?_
    simp only [sweep]
    rw [hcache, whereRows_map]

theorem C44_cache_start (s : Sampler X R K S) (st : State X K S) (n : Nat) :
    (sweeps s st.ruleState n (startScope s st)).logProb
      = (sweeps s st.ruleState n (startScope s st)).σ.map (fun z => s.pow * s.logPsi z) :=
  C44_cache s st.ruleState n _ rfl

end batched

/-! ### one chain: reversibility -/

theorem volume_accept (r : ℝ) (hr : 0 < r) :
    (volume {u : ℝ | (0 ≤ u ∧ u < 1) ∧ u < r}).toReal = min 1 r := by
  have : {u : ℝ | (0 ≤ u ∧ u < 1) ∧ u < r} = Set.Ico 0 (min 1 r) := by
    ext u; simp only [Set.mem_ofPred_eq, Set.mem_Ico, lt_min_iff]; tauto
  rw [this, Real.volume_Ico, ENNReal.toReal_ofReal]
  · simp
  · simp [hr.le]

theorem volume_reject (r : ℝ) (hr : 0 < r) :
    (volume {u : ℝ | (0 ≤ u ∧ u < 1) ∧ ¬ u < r}).toReal = 1 - min 1 r := by
  have : {u : ℝ | (0 ≤ u ∧ u < 1) ∧ ¬ u < r} = Set.Ico (min 1 r) 1 := by
    ext u
    simp only [Set.mem_ofPred_eq, Set.mem_Ico, not_lt, min_le_iff]
    constructor
    · rintro ⟨⟨_, h1⟩, h2⟩; exact ⟨Or.inr h2, h1⟩
    · rintro ⟨h1 | h1, h2⟩
      · exact absurd h2 (not_lt.2 h1)
      · exact ⟨⟨by linarith, h2⟩, h1⟩
  rw [this, Real.volume_Ico, ENNReal.toReal_ofReal]
  simp

theorem volume_all : (volume {u : ℝ | 0 ≤ u ∧ u < 1}).toReal = 1 := by
  have : {u : ℝ | 0 ≤ u ∧ u < 1} = Set.Ico 0 1 := rfl
  rw [this, Real.volume_Ico]; simp

/-- ratio inside the acceptance test. -/
noncomputable def ratio (a b : ℝ) (k : Option ℝ) : ℝ := Real.exp (a - b + k.getD 0)

theorem ratio_pos (a b : ℝ) (k : Option ℝ) : 0 < ratio a b k := Real.exp_pos _

theorem acceptOne_iff (u a b : ℝ) (k : Option ℝ) :
    acceptOne Real.exp u a b k = true ↔ u < ratio a b k := by
  cases k <;> simp [acceptOne, ratio]

section one
variable {X D : Type} [DecidableEq X] [Fintype D]

/-- the move of one chain as a function of the rule's draw `d` and the uniform number `u`. -/
noncomputable def step (lp : X → ℝ) (prop : D → X → X) (corr : D → X → Option ℝ) (d : D) (u : ℝ)
    (x : X) : X :=
  moveOne Real.exp lp u x (prop d x) (corr d x)

theorem step_volume (lp : X → ℝ) (prop : D → X → X) (corr : D → X → Option ℝ) (d : D) (x y : X)
    (hxy : x ≠ y) :
    (volume {u : ℝ | (0 ≤ u ∧ u < 1) ∧ step lp prop corr d u x = y}).toReal
      = if prop d x = y then min 1 (ratio (lp y) (lp x) (corr d x)) else 0 := by
  by_cases h : prop d x = y
  · rw [if_pos h, ← volume_accept _ (ratio_pos _ _ _)]
    congr 2
    ext u
    simp only [Set.mem_ofPred_eq, step, moveOne, h]
    rw [← acceptOne_iff u (lp y) (lp x) (corr d x)]
    cases acceptOne Real.exp u (lp y) (lp x) (corr d x) <;> simp [hxy]
  · rw [if_neg h]
    have : {u : ℝ | (0 ≤ u ∧ u < 1) ∧ step lp prop corr d u x = y} = ∅ := by
      ext u
      simp only [Set.mem_ofPred_eq, step, moveOne, Set.mem_empty_iff_false, iff_false, not_and]
      intro _
      split
      · exact h
      · exact hxy
    rw [this]; simp

theorem step_volume_self (lp : X → ℝ) (prop : D → X → X) (corr : D → X → Option ℝ) (d : D) (x : X) :
    (volume {u : ℝ | (0 ≤ u ∧ u < 1) ∧ step lp prop corr d u x = x}).toReal
      = if prop d x = x then 1 else 1 - min 1 (ratio (lp (prop d x)) (lp x) (corr d x)) := by
  by_cases h : prop d x = x
  · rw [if_pos h]
    refine Eq.trans ?_ volume_all
    congr 2
    ext u
    simp [step, moveOne, h]
  · rw [if_neg h, ← volume_reject _ (ratio_pos _ _ _)]
    congr 2
    ext u
    simp only [Set.mem_ofPred_eq, step, moveOne]
    rw [← acceptOne_iff u (lp (prop d x)) (lp x) (corr d x)]
    cases acceptOne Real.exp u (lp (prop d x)) (lp x) (corr d x) <;> simp [h]

/-- what is asked of a transition rule on the configurations `S`: draws with probabilities `w`, moves
    inside `S`, and a reported log correction `c x y` which is the ratio of the backward and the
    forward proposal probability. -/
structure Balanced (S : Finset X) (w : X → D → ℝ) (prop : D → X → X) (corr : D → X → Option ℝ) :
    Prop where
  nonneg : ∀ x ∈ S, ∀ d, 0 ≤ w x d
  total : ∀ x ∈ S, ∑ d, w x d = 1
  closed : ∀ x ∈ S, ∀ d, w x d ≠ 0 → prop d x ∈ S
  ratio : ∃ c : X → X → ℝ, (∀ x ∈ S, ∀ d, w x d ≠ 0 → (corr d x).getD 0 = c x (prop d x)) ∧
    ∀ x ∈ S, ∀ y ∈ S, x ≠ y →
      proposal w prop x y * Real.exp (c x y) = proposal w prop y x

theorem kernel_offdiag (S : Finset X) (w : X → D → ℝ) (prop : D → X → X)
    (corr : D → X → Option ℝ) (lp : X → ℝ) (c : X → X → ℝ)
    (hc : ∀ x ∈ S, ∀ d, w x d ≠ 0 → (corr d x).getD 0 = c x (prop d x)) (x y : X) (hx : x ∈ S)
    (hxy : x ≠ y) :
    kernel w (step lp prop corr) x y
      = proposal w prop x y * min 1 (Real.exp (lp y - lp x + c x y)) := by
  rw [kernel, proposal, Finset.sum_mul]
  refine Finset.sum_congr rfl fun d _ => ?_
  rw [step_volume lp prop corr d x y hxy]
  by_cases h : prop d x = y
  · by_cases hw : w x d = 0
    · simp [hw]
    · rw [if_pos h, if_pos h, ratio, hc x hx d hw, h]
  · simp [h]

theorem kernel_stochastic (S : Finset X) (w : X → D → ℝ) (prop : D → X → X)
    (corr : D → X → Option ℝ) (lp : X → ℝ) (hb : Balanced S w prop corr) :
    Stochastic S (kernel w (step lp prop corr)) := by
  refine ⟨fun x hx y _ => Finset.sum_nonneg fun d _ =>
    mul_nonneg (hb.nonneg x hx d) ENNReal.toReal_nonneg, fun x hx => ?_⟩
  simp only [kernel]
  rw [Finset.sum_comm]
  refine Eq.trans (Finset.sum_congr rfl fun d _ => ?_) (hb.total x hx)
  rw [← Finset.mul_sum]
  by_cases hw : w x d = 0
  · simp [hw]
  have hp := hb.closed x hx d hw
  have hsum : ∑ y ∈ S, (volume {u : ℝ | (0 ≤ u ∧ u < 1) ∧ step lp prop corr d u x = y}).toReal
      = 1 := by
    rw [← Finset.add_sum_erase S _ hx, step_volume_self]
    by_cases h : prop d x = x
    · rw [if_pos h, Finset.sum_eq_zero, add_zero]
      intro y hy
      rw [step_volume lp prop corr d x y (Finset.ne_of_mem_erase hy).symm, if_neg]
      rw [h]; exact (Finset.ne_of_mem_erase hy).symm
    · rw [if_neg h, Finset.sum_eq_single_of_mem (prop d x) (Finset.mem_erase.2 ⟨h, hp⟩)]
      · rw [step_volume lp prop corr d x _ (Ne.symm h), if_pos rfl]; ring
      · intro y hy hne
        rw [step_volume lp prop corr d x y (Finset.ne_of_mem_erase hy).symm, if_neg (Ne.symm hne)]
  rw [hsum, mul_one]

/-- Detailed balance: for every wavefunction, every power and every rule reporting the proposal ratio,
    the chain satisfies detailed balance with respect to `exp(pow * Re log psi)`. -/
theorem C44_detailed_balance (S : Finset X) (w : X → D → ℝ) (prop : D → X → X)
    (corr : D → X → Option ℝ) (lp : X → ℝ) (hb : Balanced S w prop corr) :
    Reversible S (fun x => Real.exp (lp x)) (kernel w (step lp prop corr)) := by
  intro x hx y hy
  by_cases hxy : x = y
  · subst hxy; rfl
  obtain ⟨c, hc, hq⟩ := hb.ratio
  rw [kernel_offdiag S w prop corr lp c hc x y hx hxy,
    kernel_offdiag S w prop corr lp c hc y x hy (Ne.symm hxy)]
  have h1 := hq x hx y hy hxy
  have h2 := hq y hy x hx (Ne.symm hxy)
  have hp : 0 ≤ proposal w prop x y := Finset.sum_nonneg fun d _ => by
    split
    · exact hb.nonneg x hx d
    · exact le_refl 0
  by_cases h0 : proposal w prop x y = 0
  · rw [h0, zero_mul] at h1
    rw [h0, ← h1]; simp
  · have hpos : 0 < proposal w prop x y := lt_of_le_of_ne hp (Ne.symm h0)
    have hcc : Real.exp (c x y) * Real.exp (c y x) = 1 := by
      rw [← h1] at h2
      have : proposal w prop x y * (Real.exp (c x y) * Real.exp (c y x)) = proposal w prop x y * 1 := by
        rw [mul_one]; linarith [h2]
      exact mul_left_cancel₀ h0 this
    rw [← h1]
    have e1 : Real.exp (lp x) * Real.exp (lp y - lp x + c x y)
        = Real.exp (lp y) * Real.exp (c x y) := by
      rw [← Real.exp_add, ← Real.exp_add]; congr 1; ring
    have e2 : Real.exp (lp y) * Real.exp (c x y) * Real.exp (lp x - lp y + c y x) = Real.exp (lp x) := by
      rw [Real.exp_add, show Real.exp (lp y) * Real.exp (c x y) * (Real.exp (lp x - lp y) * Real.exp (c y x))
        = Real.exp (lp y) * Real.exp (lp x - lp y) * (Real.exp (c x y) * Real.exp (c y x)) by ring, hcc,
        mul_one, ← Real.exp_add]
      congr 1; ring
    have m1 : Real.exp (lp x) * min 1 (Real.exp (lp y - lp x + c x y))
        = min (Real.exp (lp x)) (Real.exp (lp y) * Real.exp (c x y)) := by
      rw [mul_min_of_nonneg _ _ (Real.exp_pos _).le, mul_one, e1]
    have m2 : Real.exp (lp y) * Real.exp (c x y) * min 1 (Real.exp (lp x - lp y + c y x))
        = min (Real.exp (lp y) * Real.exp (c x y)) (Real.exp (lp x)) := by
      rw [mul_min_of_nonneg _ _ (by positivity), mul_one, e2]
    calc Real.exp (lp x) * (proposal w prop x y * min 1 (Real.exp (lp y - lp x + c x y)))
        = proposal w prop x y * (Real.exp (lp x) * min 1 (Real.exp (lp y - lp x + c x y))) := by ring
      _ = proposal w prop x y * (Real.exp (lp y) * Real.exp (c x y)
            * min 1 (Real.exp (lp x - lp y + c y x))) := by rw [m1, m2, min_comm]
      _ = _ := by ring

/-- `n_sweeps` moves leave `|psi|^pow` stationary and keep it reversible; probabilities stay
    probabilities. -/
theorem C44_stationary (S : Finset X) (w : X → D → ℝ) (prop : D → X → X)
    (corr : D → X → Option ℝ) (lp : X → ℝ) (hb : Balanced S w prop corr) (nSweeps : Nat) :
    let P := kpow S (kernel w (step lp prop corr)) nSweeps
    Stochastic S P ∧ Reversible S (fun x => Real.exp (lp x)) P ∧
      Stationary S (fun x => Real.exp (lp x)) P := by
  have h1 := (kernel_stochastic S w prop corr lp hb).kpow nSweeps
  have h2 := (C44_detailed_balance S w prop corr lp hb).kpow nSweeps
  exact ⟨h1, h2, h2.stationary h1⟩

/-- The same with the sampler's own acceptance test: for a machine with log-amplitudes `logpsi`, of which the sampler uses the real part, the
    stationary weight of `x` is `|psi(x)|^machine_pow`. -/
theorem C44_samples_pow {K S' : Type} (s : Metro.Sampler X ℝ K S') (logpsi : X → ℂ) (h : ∀ x, s.logPsi x = (logpsi x).re) (S : Finset X)
    (w : X → D → ℝ) (prop : D → X → X) (corr : D → X → Option ℝ) (hb : Balanced S w prop corr) (nSweeps : Nat) :
    Stationary S (fun x => ‖Complex.exp (logpsi x)‖ ^ s.pow) (kpow S (kernel w (step (logProb s) prop corr)) nSweeps) := by
  have e : (fun x => ‖Complex.exp (logpsi x)‖ ^ s.pow) = fun x => Real.exp (logProb s x) := by
    funext x
    rw [Complex.norm_exp, ← h x]
    exact (Real.exp_nat_mul (s.logPsi x) s.pow).symm
  rw [e]
  exact (C44_stationary S w prop corr (logProb s) hb nSweeps).2.2

/-- rules without correction: reversibility needs only a symmetric number of draws. -/
theorem balanced_of_symm (S : Finset X) (prop : D → X → X) [Nonempty D]
    (hcl : ∀ x ∈ S, ∀ d, prop d x ∈ S)
    (hsym : ∀ x ∈ S, ∀ y ∈ S, x ≠ y →
      (univ.filter fun d => prop d x = y).card = (univ.filter fun d => prop d y = x).card) :
    Balanced S (fun _ _ => 1 / (Fintype.card D : ℝ)) prop (fun _ _ => none) := by
  refine ⟨fun _ _ _ => by positivity, fun _ _ => ?_, fun x hx d _ => hcl x hx d,
    fun _ _ => 0, fun _ _ _ _ => rfl, fun x hx y hy hxy => ?_⟩
  · simp
  · simp only [proposal, Real.exp_zero, mul_one]
    rw [← Finset.sum_filter, ← Finset.sum_filter, Finset.sum_const, Finset.sum_const,
      hsym x hx y hy hxy]

/-! cases: two chains of spins, every update flips them all -/

/-- see above. -/
def flipAll : Sampler Int ℚ Nat Unit where
  rng := ⟨fun k => (k, k + 1), fun k => (k, k + 1, k + 2), fun _ n => List.replicate n 0⟩
  rule := ⟨fun _ => (), id, fun _ _ σ => (σ.map (- ·), none), fun _ _ => [1, 1]⟩
  exp x := if 0 ≤ x then 1 else 0
  logPsi x := x
  pow := 2
  nSweeps := 1
  nChainsPerRank := 2
  nNodes := 1
  resetChains := false
  zeroRow := 0

example := C44_sweep_row flipAll () ⟨5, [1, -1], [2, -2], 0⟩ (by decide +kernel) 1 (-1) 1 0 none rfl rfl rfl rfl

example := C44_cache flipAll () 3 ⟨5, [1, -1], [2, -2], 0⟩ (by decide +kernel)

end one

end Verif.Metro
