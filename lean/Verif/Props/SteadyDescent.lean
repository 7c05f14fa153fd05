import Verif.Props.Descent

/-! C253, C254: the updates of `SteadyState` and the cost `‖Lρ‖²/‖ρ‖²`. -/

set_option linter.unusedSectionVars false
set_option linter.unusedVariables false

namespace Verif.Descent
open Verif.Vjp Finset
open Verif.Stats (avg)

variable {S : Type} [Fintype S]

/-- specification: `‖Lρ‖²/‖ρ‖²` for the matrix `ρ = exp l`, `S` being the pairs of configurations -/
noncomputable def cost (L : S → S → ℂ) (l : S → ℂ) : ℝ :=
  (∑ s, Complex.normSq (∑ t, L s t * Complex.exp (l t))) / ∑ s, Complex.normSq (Complex.exp (l s))

/-- specification: the derivatives of `Lρ` over `ρ` (what `_local_values_and_grads_notcentered_kernel`,
    operator/_der_local_values_jax.py:45-58, computes) -/
noncomputable def dLoc (L : S → S → ℂ) (l : S → ℂ) (D : S → ℂ) (s : S) : ℂ := ∑ t, L s t * Complex.exp (l t - l s) * D t

theorem hasDerivAt_normSq {f : ℝ → ℂ} {f' : ℂ} {w : ℝ} (h : HasDerivAt f f' w) :
    HasDerivAt (fun x => Complex.normSq (f x)) (2 * ((starRingEnd ℂ) f' * f w).re) w := by
  have hr : HasDerivAt (fun x => (f x).re) f'.re w := Complex.reCLM.hasFDerivAt.comp_hasDerivAt w h
  have hi : HasDerivAt (fun x => (f x).im) f'.im w := Complex.imCLM.hasFDerivAt.comp_hasDerivAt w h
  refine ((hr.mul hr).add (hi.mul hi)).congr_deriv ?_
  simp [Complex.mul_re]
  ring

theorem conj_exp_mul (L : S → S → ℂ) (l : S → ℂ) (D : S → ℂ) (s : S) :
    (Complex.normSq (Complex.exp (l s)) : ℂ) * ((starRingEnd ℂ) (dLoc L l D s) * eLoc L l s)
      = (starRingEnd ℂ) (∑ t, L s t * (Complex.exp (l t) * D t)) * ∑ t, L s t * Complex.exp (l t) := by
  have hne := Complex.exp_ne_zero (l s)
  have h1 : Complex.exp (l s) * dLoc L l D s = ∑ t, L s t * (Complex.exp (l t) * D t) := by
    unfold dLoc
    rw [mul_sum]
    refine sum_congr rfl fun t _ => ?_
    rw [Complex.exp_sub]
    field_simp
  have h2 : Complex.exp (l s) * eLoc L l s = ∑ t, L s t * Complex.exp (l t) := by
    unfold eLoc
    rw [mul_sum]
    refine sum_congr rfl fun t _ => ?_
    rw [Complex.exp_sub]
    field_simp
  rw [← h1, ← h2, map_mul, Complex.normSq_eq_conj_mul_self]
  ring

/-- the derivative of the cost along a curve -/
theorem hasDerivAt_cost [Nonempty S] (L : S → S → ℂ) (l : ℝ → S → ℂ) (D : S → ℂ) (w : ℝ)
    (hD : ∀ s, HasDerivAt (fun x => l x s) (D s) w) :
    HasDerivAt (fun x => cost L (l x))
      (2 * ((∑ s, (prob (l w) s : ℂ) * ((starRingEnd ℂ) (dLoc L (l w) D s) * eLoc L (l w) s))
        - (starRingEnd ℂ) (∑ s, (prob (l w) s : ℂ) * D s) * (cost L (l w) : ℂ)).re) w := by
  have hZ := Z_pos (l w)
  have hE : ∀ s, HasDerivAt (fun x => Complex.exp (l x s)) (Complex.exp (l w s) * D s) w := fun s => (hD s).cexp
  have hN : HasDerivAt (fun x => ∑ s, Complex.normSq (∑ t, L s t * Complex.exp (l x t)))
      (∑ s, 2 * ((starRingEnd ℂ) (∑ t, L s t * (Complex.exp (l w t) * D t)) * ∑ t, L s t * Complex.exp (l w t)).re) w := by
    apply HasDerivAt.fun_sum
    intro s _
    apply hasDerivAt_normSq
    apply HasDerivAt.fun_sum
    intro t _
    exact (hE t).const_mul _
  have hB : HasDerivAt (fun x => ∑ s, Complex.normSq (Complex.exp (l x s)))
      (∑ s, 2 * ((starRingEnd ℂ) (Complex.exp (l w s) * D s) * Complex.exp (l w s)).re) w := by
    apply HasDerivAt.fun_sum
    intro s _
    exact hasDerivAt_normSq (hE s)
  refine (hN.div hB hZ.ne').congr_deriv ?_
  obtain ⟨Z, hZd⟩ : ∃ Z, Z = ∑ s, Complex.normSq (Complex.exp (l w s)) := ⟨_, rfl⟩
  obtain ⟨N, hNd⟩ : ∃ N, N = ∑ s, Complex.normSq (∑ t, L s t * Complex.exp (l w t)) := ⟨_, rfl⟩
  have e1 : ∑ s, (prob (l w) s : ℂ) * ((starRingEnd ℂ) (dLoc L (l w) D s) * eLoc L (l w) s)
      = (∑ s, (starRingEnd ℂ) (∑ t, L s t * (Complex.exp (l w t) * D t)) * ∑ t, L s t * Complex.exp (l w t)) / (Z : ℂ) := by
    rw [sum_div]
    refine sum_congr rfl fun s _ => ?_
    rw [← conj_exp_mul, prob, ← hZd]
    push_cast
    ring
  have e2 : (starRingEnd ℂ) (∑ s, (prob (l w) s : ℂ) * D s)
      = (∑ s, (starRingEnd ℂ) (Complex.exp (l w s) * D s) * Complex.exp (l w s)) / (Z : ℂ) := by
    rw [map_sum, sum_div]
    refine sum_congr rfl fun s _ => ?_
    rw [map_mul, Complex.conj_ofReal, map_mul, prob, ← hZd]
    push_cast
    rw [Complex.normSq_eq_conj_mul_self]
    ring
  have e3 : cost L (l w) = N / Z := by rw [cost, hNd, hZd]
  rw [e1, e2, e3, ← hNd, ← hZd, ← mul_sum, ← mul_sum, ← Complex.re_sum, ← Complex.re_sum, Complex.sub_re, Complex.div_ofReal_re,
    Complex.re_mul_ofReal, Complex.div_ofReal_re]
  have hZ' : Z ≠ 0 := by rw [hZd]; exact hZ.ne'
  field_simp

/-- The situation: real parameters, and complex parameters in which the logarithm of the density matrix is holomorphic, with
    derivatives `D`; samples representing `|ρ|²`. -/
structure Mixed (S : Type) [Fintype S] where
  np : Nat
  cplx : Nat → Bool
  L : S → S → ℂ
  logrho : (Nat → ℂ) → S → ℂ
  θ : Nat → ℂ
  D : S → Nat → ℂ
  samples : List S
  nonempty : samples ≠ []
  diff : ∀ v : Nat → ℂ, (∀ k, cplx k = false → (v k).im = 0) → ∀ s, HasDerivAt (fun t : ℝ => logrho (move θ v t) s) (∑ k ∈ range np, v k * D s k) 0
  repr : Represents (logrho θ) samples

namespace Mixed
variable (A : Mixed S)

/-- what a sample contributes: local value, its derivatives, derivatives of the logarithm (vqs/mc_state.py:796-816) -/
noncomputable def entry (s : S) : ℂ × (Nat → ℂ) × (Nat → ℂ) :=
  (eLoc A.L (A.logrho A.θ) s, fun k => dLoc A.L (A.logrho A.θ) (fun t => A.D t k) s, A.D s)

/-- the gradient `expect_and_grad` returns for the squared Lindbladian if the samples are distributed like `shards` -/
noncomputable def grad (shards : List (List S)) (k : Nat) : ℂ := gradLrho2 (shards.map fun a => a.map A.entry) k

/-- the cost after a change `v` of the parameters with learning rate `t` -/
noncomputable def costAfter (v : Nat → ℂ) (t : ℝ) : ℝ := cost A.L (A.logrho (move A.θ v t))

/-- the change of the parameters with learning rate one: the gradient, its real part for real parameters
    (driver/steady_state.py:121-126) -/
noncomputable def step (shards : List (List S)) (k : Nat) : ℂ :=
  -(if A.cplx k then A.grad shards k else ((A.grad shards k).re : ℂ))

end Mixed

theorem avg_cost (A : Mixed S) : ∑ s, (prob (A.logrho A.θ) s : ℂ) * ((Complex.normSq (eLoc A.L (A.logrho A.θ) s) : ℝ) : ℂ)
    = (cost A.L (A.logrho A.θ) : ℂ) := by
  unfold cost
  rw [Complex.ofReal_div, Complex.ofReal_sum, sum_div]
  refine sum_congr rfl fun s _ => ?_
  have h2 : Complex.exp (A.logrho A.θ s) * eLoc A.L (A.logrho A.θ) s = ∑ t, A.L s t * Complex.exp (A.logrho A.θ t) := by
    unfold eLoc
    rw [mul_sum]
    refine sum_congr rfl fun t _ => ?_
    rw [Complex.exp_sub]
    have hne := Complex.exp_ne_zero (A.logrho A.θ s)
    field_simp
  rw [← h2, Complex.normSq_mul, prob]
  push_cast
  ring

theorem spec_eq (A : Mixed S) (k : Nat) : A.grad [A.samples] k
    = (∑ s, (prob (A.logrho A.θ) s : ℂ) * ((starRingEnd ℂ) (dLoc A.L (A.logrho A.θ) (fun t => A.D t k) s) * eLoc A.L (A.logrho A.θ) s))
      - (starRingEnd ℂ) (∑ s, (prob (A.logrho A.θ) s : ℂ) * A.D s k) * (cost A.L (A.logrho A.θ) : ℂ) := by
  unfold Mixed.grad
  rw [List.map_cons, List.map_nil, C121_lrho2_partial]
  unfold lrho2Spec
  rw [List.map_map, List.map_map, List.map_map]
  have e1 := avg_represents _ _ A.nonempty A.repr
    fun s => (starRingEnd ℂ) (dLoc A.L (A.logrho A.θ) (fun t => A.D t k) s) * eLoc A.L (A.logrho A.θ) s
  have e2 := avg_represents _ _ A.nonempty A.repr fun s => A.D s k
  have e3 := avg_represents _ _ A.nonempty A.repr fun s => ((Complex.normSq (eLoc A.L (A.logrho A.θ) s) : ℝ) : ℂ)
  have e4 := avg_cost A
  rw [← e1, ← e2, ← e4, ← e3]
  rfl

/-- **C253**: on one process the derivative of the cost along any change `v` of the parameters is `2 Σ_k Re(conj(v_k) F_k)`. -/
theorem C253_derivative (A : Mixed S) (v : Nat → ℂ) (hv : ∀ k, A.cplx k = false → (v k).im = 0) :
    HasDerivAt (A.costAfter v) (2 * ∑ k ∈ range A.np, (star (v k) * A.grad [A.samples] k).re) 0 := by
  have hS : Nonempty S := by
    cases h : A.samples with
    | nil => exact absurd h A.nonempty
    | cons s _ => exact ⟨s⟩
  have hmain := hasDerivAt_cost A.L (fun t : ℝ => A.logrho (move A.θ v t)) (fun s => ∑ k ∈ range A.np, v k * A.D s k) 0 (A.diff v hv)
  have h0 : A.logrho (move A.θ v 0) = A.logrho A.θ := by
    congr 1
    funext k
    simp [move]
  simp only [h0] at hmain
  refine hmain.congr_deriv ?_
  congr 1
  rw [← Complex.re_sum]
  congr 1
  simp only [spec_eq]
  have d1 : ∀ s, dLoc A.L (A.logrho A.θ) (fun s => ∑ k ∈ range A.np, v k * A.D s k) s
      = ∑ k ∈ range A.np, v k * dLoc A.L (A.logrho A.θ) (fun t => A.D t k) s := by
    intro s
    unfold dLoc
    simp only [mul_sum]
    rw [sum_comm]
    refine sum_congr rfl fun k _ => sum_congr rfl fun t _ => ?_
    ring
  simp only [d1, mul_sub, sum_sub_distrib]
  congr 1
  · simp only [map_sum, map_mul, sum_mul, mul_sum]
    rw [sum_comm]
    refine sum_congr rfl fun k _ => sum_congr rfl fun s _ => ?_
    rw [Complex.star_def]
    ring
  · simp only [map_sum, map_mul, sum_mul, mul_sum]
    rw [sum_comm]
    refine sum_congr rfl fun k _ => sum_congr rfl fun s _ => ?_
    rw [Complex.star_def]
    ring

/-- **C253**: on one process an update lowers the cost, at the rate `2 |F|²` (the real parts for real parameters): it is lower for
    all small learning rates unless these vanish. -/
theorem C253_sgd (A : Mixed S) :
    HasDerivAt (A.costAfter (A.step [A.samples])) (-(2 * ∑ k ∈ range A.np, Complex.normSq (A.step [A.samples] k))) 0 ∧
    ((∃ k < A.np, A.step [A.samples] k ≠ 0) → ∃ ε > 0, ∀ lr, 0 < lr → lr < ε →
      A.costAfter (A.step [A.samples]) lr < cost A.L (A.logrho A.θ)) := by
  have h := C253_derivative A (A.step [A.samples]) (by
    intro k hk
    simp [Mixed.step, hk])
  have e : (2 * ∑ k ∈ range A.np, (star (A.step [A.samples] k) * A.grad [A.samples] k).re)
      = -(2 * ∑ k ∈ range A.np, Complex.normSq (A.step [A.samples] k)) := by
    rw [← mul_neg, ← sum_neg_distrib]
    congr 1
    refine sum_congr rfl fun k _ => ?_
    unfold Mixed.step
    cases A.cplx k
    · simp [Complex.normSq_apply]
    · simp only [if_true]
      rw [star_neg, neg_mul, Complex.neg_re, re_star_mul_self, Complex.normSq_neg]
  rw [e] at h
  refine ⟨h, fun ⟨k, hk, hg⟩ => ?_⟩
  have h0 : A.costAfter (A.step [A.samples]) 0 = cost A.L (A.logrho A.θ) := by
    unfold Mixed.costAfter
    congr 2
    funext k
    simp [move]
  rw [← h0]
  apply lower_of_deriv h
  have : 0 < ∑ k ∈ range A.np, Complex.normSq (A.step [A.samples] k) :=
    sum_pos' (fun _ _ => Complex.normSq_nonneg _) ⟨k, mem_range.2 hk, Complex.normSq_pos.2 hg⟩
  linarith

/-! ### Dephasing of one spin -/

/-- the Lindbladian of one spin with the jump operator `σ_z`: `Lρ = σ_z ρ σ_z - ρ`, `ρ` listed row by row -/
noncomputable def dephasing (s t : Fin 2 × Fin 2) : ℂ := if s = t then (if s.1 = s.2 then 0 else -2) else 0

/-- `σ_z` -/
def sigmaZ : Matrix (Fin 2) (Fin 2) ℂ := !![1, 0; 0, -1]

/-- it is the Lindblad generator `c ρ c† - (c†c ρ + ρ c†c)/2` with `c = σ_z` -/
theorem dephasing_eq (ρ : Matrix (Fin 2) (Fin 2) ℂ) (i j : Fin 2) :
    ∑ t : Fin 2 × Fin 2, dephasing (i, j) t * ρ t.1 t.2
      = (sigmaZ * ρ * sigmaZ.conjTranspose
          - (1 / 2 : ℂ) • (sigmaZ.conjTranspose * sigmaZ * ρ + ρ * (sigmaZ.conjTranspose * sigmaZ))) i j := by
  have hd : sigmaZ = Matrix.diagonal ![1, -1] := by
    ext i j
    fin_cases i <;> fin_cases j <;> simp [sigmaZ]
  have hc : sigmaZ.conjTranspose = sigmaZ := by
    rw [hd, Matrix.diagonal_conjTranspose]
    congr 1
    funext i
    fin_cases i <;> simp
  have hs : sigmaZ * sigmaZ = 1 := by
    rw [hd, Matrix.diagonal_mul_diagonal, ← Matrix.diagonal_one]
    congr 1
    funext i
    fin_cases i <;> simp
  rw [hc, hs, one_mul, mul_one, hd, Matrix.sub_apply, Matrix.mul_diagonal, Matrix.diagonal_mul, Matrix.smul_apply, Matrix.add_apply,
    Fintype.sum_prod_type]
  fin_cases i <;> fin_cases j <;> simp [dephasing, Fin.sum_univ_two] <;> ring

/-- density matrices with equal populations and coherence `e^x`, at `x = 0`; every pair of configurations drawn once -/
noncomputable def exM (cplx : Bool) : Mixed (Fin 2 × Fin 2) where
  np := 1
  cplx := fun _ => cplx
  L := dephasing
  logrho := fun θ s => if s.1 = s.2 then 0 else θ 0
  θ := fun _ => 0
  D := fun s _ => if s.1 = s.2 then 0 else 1
  samples := [(0, 0), (0, 1), (1, 0), (1, 1)]
  nonempty := by simp
  diff := by
    intro v hv s
    have h := (Complex.ofRealCLM.hasDerivAt (x := (0 : ℝ))).mul_const (v 0)
    simp only [Complex.ofRealCLM_apply, Complex.ofReal_one, one_mul] at h
    by_cases hs : s.1 = s.2
    · simp only [hs, if_true, mul_zero, sum_const_zero]
      exact hasDerivAt_const _ _
    · simp only [hs, if_false, move, zero_add, sum_range_one, mul_one]
      exact h
  repr := by
    intro s
    obtain ⟨i, j⟩ := s
    fin_cases i <;> fin_cases j <;> simp [prob, Fintype.sum_prod_type, Fin.sum_univ_two] <;> norm_num

/-- the gradient on one process is 1, that on four processes with one sample each is -2. -/
theorem exM_grad (c : Bool) : (exM c).grad [(exM c).samples] 0 = 1 ∧ (exM c).grad ((exM c).samples.map fun s => [s]) 0 = -2 := by
  constructor
  · unfold Mixed.grad
    rw [lrho2_eq 4 _ (by simp [Verif.Stats.Equal, exM])]
    simp only [exM, List.map_cons, List.map_nil, List.flatten_cons, List.flatten_nil, List.append_nil]
    simp only [Mixed.entry]
    simp [avg, eLoc, dLoc, dephasing, Fintype.sum_prod_type, Fin.sum_univ_two, map_ofNat]
    norm_num
  · unfold Mixed.grad
    rw [lrho2_eq 1 _ (by simp [Verif.Stats.Equal, exM])]
    simp only [exM, List.map_cons, List.map_nil, List.flatten_cons, List.flatten_nil, List.append_nil]
    simp only [Mixed.entry]
    simp [avg, eLoc, dLoc, dephasing, Fintype.sum_prod_type, Fin.sum_univ_two, map_ofNat]
    norm_num

/-- the cost is `4 y²/(1 + y²)` for the coherence `y = e^x` -/
theorem exM_cost (c : Bool) (x : ℝ) : cost dephasing ((exM c).logrho fun _ => (x : ℂ)) = 4 * Real.exp x ^ 2 / (1 + Real.exp x ^ 2) := by
  have h : Complex.normSq (Complex.exp x) = Real.exp x ^ 2 := by
    rw [← Complex.ofReal_exp, Complex.normSq_ofReal]
    ring
  have hp : (0 : ℝ) < 1 + Real.exp x ^ 2 := by positivity
  simp [cost, exM, dephasing, Fintype.sum_prod_type, Fin.sum_univ_two, h]
  field_simp
  ring

/-- **C254**: on several processes the update can go uphill: for the dephasing of one spin on four processes every update,
    whatever the learning rate, raises the cost, although the gradient on one process lowers it. -/
theorem C254_uphill_refuted (c : Bool) (lr : ℝ) (hlr : 0 < lr) :
    cost (exM c).L ((exM c).logrho (exM c).θ) < (exM c).costAfter ((exM c).step ((exM c).samples.map fun s => [s])) lr := by
  have e0 : cost (exM c).L ((exM c).logrho (exM c).θ) = 4 * Real.exp 0 ^ 2 / (1 + Real.exp 0 ^ 2) := by
    rw [← exM_cost c 0]
    simp [exM]
  have e1 : (exM c).costAfter ((exM c).step ((exM c).samples.map fun s => [s])) lr
      = 4 * Real.exp (2 * lr) ^ 2 / (1 + Real.exp (2 * lr) ^ 2) := by
    rw [← exM_cost c (2 * lr)]
    have hs : (exM c).step ((exM c).samples.map fun s => [s]) 0 = 2 := by
      unfold Mixed.step
      rw [(exM_grad c).2]
      cases c <;> simp [exM]
    unfold Mixed.costAfter
    congr 1
    funext s
    show (if s.1 = s.2 then 0 else move (exM c).θ ((exM c).step ((exM c).samples.map fun s => [s])) lr 0)
      = if s.1 = s.2 then 0 else ((2 * lr : ℝ) : ℂ)
    unfold move
    rw [hs]
    have : (exM c).θ 0 = 0 := rfl
    rw [this]
    push_cast
    rw [zero_add, mul_comm]
  rw [e0, e1, Real.exp_zero]
  have h1 : 1 < Real.exp (2 * lr) := Real.one_lt_exp_iff.2 (by linarith)
  have h2 : 1 < Real.exp (2 * lr) ^ 2 := by nlinarith
  rw [div_lt_div_iff₀ (by norm_num) (by positivity)]
  linarith

/-- **C254**: the gradient on equal shards over `n` processes is that on one process, less `(n - 1)` times the conjugated average
    derivative times the cost: it is right on one process, or if that product vanishes, and in no other case. -/
theorem C254_gradient_partial (A : Mixed S) (len : Nat) (shards : List (List S)) (hl : Verif.Stats.Equal len shards)
    (hs : shards.flatten = A.samples) (k : Nat) :
    A.grad shards k = A.grad [A.samples] k - ((shards.length : ℂ) - 1)
      * ((starRingEnd ℂ) (∑ s, (prob (A.logrho A.θ) s : ℂ) * A.D s k) * (cost A.L (A.logrho A.θ) : ℂ)) := by
  have hE : Verif.Stats.Equal len (shards.map fun a => a.map A.entry) := by
    intro a ha
    obtain ⟨b, hb, rfl⟩ := List.mem_map.1 ha
    rw [List.length_map, hl b hb]
  have hflat : (shards.map fun a => a.map A.entry).flatten = A.samples.map A.entry := by
    rw [← hs, List.map_flatten]
  have e2 : avg ((A.samples.map A.entry).map fun s => s.2.2 k) = ∑ s, (prob (A.logrho A.θ) s : ℂ) * A.D s k := by
    rw [List.map_map]
    exact avg_represents _ _ A.nonempty A.repr fun s => A.D s k
  have hone := spec_eq A k
  have h1 := lrho2_eq A.samples.length [A.samples.map A.entry] (by simp [Verif.Stats.Equal]) k
  have h2 := lrho2_eq len _ hE k
  rw [hflat, List.length_map, e2] at h2
  rw [List.flatten_cons, List.flatten_nil, List.append_nil, e2, List.length_singleton] at h1
  have h1' : A.grad [A.samples] k = gradLrho2 [A.samples.map A.entry] k := rfl
  have e3 : avg ((A.samples.map A.entry).map fun s => ((Complex.normSq s.1 : ℝ) : ℂ)) = (cost A.L (A.logrho A.θ) : ℂ) := by
    rw [List.map_map, ← avg_cost A]
    exact avg_represents _ _ A.nonempty A.repr fun s => ((Complex.normSq (eLoc A.L (A.logrho A.θ) s) : ℝ) : ℂ)
  rw [h1', h1, e3]
  unfold Mixed.grad
  rw [h2, e3]
  push_cast
  ring

example (c : Bool) := (C253_sgd (exM c)).2 ⟨0, by simp [exM], by
  unfold Mixed.step
  rw [(exM_grad c).1]
  cases c <;> simp [exM]⟩
example := C253_derivative (exM true) (fun _ => Complex.I) (by simp [exM])
example := C254_gradient_partial (exM true) 1 ((exM true).samples.map fun s => [s]) (by simp [Verif.Stats.Equal, exM]) (by simp [exM]) 0

end Verif.Descent
