import Verif.Model.LegacyJax
import Verif.Spec.LegacyJax
import Verif.Props.LegacyRbm
import Verif.Props.Machines
import Mathlib.Tactic.NormNum
import Mathlib.Tactic.Positivity

/-! C206, C207: the jax machines of `netket.legacy`, part one: values. -/

namespace Verif.LegacyJax
open Verif.Hilbert (Err)
open Verif.LegacyJaxSpec
open Verif.Machines (IsGram cosh_gram)
open Finset

/-! ## logcosh -/

/-- the exponential of `logcosh`, for every input. -/
theorem exp_logcosh (x : ℂ) : Complex.exp (logcosh x) = if x.re = 0 then 1 else Complex.cosh x := by
  have e : logcosh x = LegacyMachine.logCosh1 x := by
    unfold logcosh LegacyMachine.logCosh1; simp only; ring
  split_ifs with h
  · have h0 : logcosh x = logcosh 0 := by
      unfold logcosh LegacyMachine.sgn; simp [h]
    rw [h0]
    have := LegacyMachine.exp_logCosh1 0 (Or.inr rfl)
    have e0 : logcosh 0 = LegacyMachine.logCosh1 0 := by
      unfold logcosh LegacyMachine.logCosh1; simp only; ring
    rw [e0, this, Complex.cosh_zero]
  · rw [e, LegacyMachine.exp_logCosh1 x (Or.inl h)]

theorem exp_logcosh_regular (x : ℂ) (h : Regular x) : Complex.exp (logcosh x) = Complex.cosh x := by
  rw [exp_logcosh]
  split_ifs with h0
  · rcases h with h | h
    · exact absurd h0 h
    · rw [h, Complex.cosh_zero]
  · rfl

theorem exp_sumLogCosh (m : Nat) (θ : Nat → ℂ) :
    Complex.exp (sumLogCosh m θ) = ∏ j ∈ range m, if (θ j).re = 0 then 1 else Complex.cosh (θ j) := by
  unfold sumLogCosh
  rw [Complex.exp_sum]
  exact prod_congr rfl fun j _ => exp_logcosh _

theorem exp_sumLogCosh_regular (m : Nat) (θ : Nat → ℂ) (h : ∀ j < m, Regular (θ j)) :
    Complex.exp (sumLogCosh m θ) = ∏ j ∈ range m, Complex.cosh (θ j) := by
  unfold sumLogCosh
  rw [Complex.exp_sum]
  exact prod_congr rfl fun j hj => exp_logcosh_regular _ (h j (mem_range.1 hj))

/-- C206: `logcosh` is the logarithm of the hyperbolic cosine off the imaginary axis, and at zero. -/
theorem C206_logcosh (x : ℂ) (h : Regular x) : Complex.exp (logcosh x) = Complex.cosh x := exp_logcosh_regular x h

example : Regular (1 + Complex.I) := Or.inl (by simp)

/-- C207: on the imaginary axis the documented factor is a cosine; the code has the factor 1, whatever the input is. -/
theorem C207_imaginary_refuted (y : ℝ) :
    Complex.exp (logcosh ((y : ℂ) * Complex.I)) = 1 ∧ Complex.cosh ((y : ℂ) * Complex.I) = Real.cos y := by
  constructor
  · rw [exp_logcosh, if_pos (by simp)]
  · rw [Complex.cosh_mul_I, Complex.ofReal_cos]

/-- C207, the part that holds: the value is right exactly where the hyperbolic cosine is 1 or the real part is not zero. -/
theorem C207_imaginary_partial (x : ℂ) :
    Complex.exp (logcosh x) = Complex.cosh x ↔ x.re ≠ 0 ∨ Complex.cosh x = 1 := by
  rw [exp_logcosh]
  split_ifs with h
  · constructor
    · intro e; exact Or.inr e.symm
    · rintro (h' | h')
      · exact absurd h h'
      · exact h'.symm
  · exact ⟨fun _ => Or.inl h, fun _ => rfl⟩

/-! ## RBM -/

theorem dense_hidden (n : Nat) (W : Nat → Nat → ℂ) (b : Nat → ℂ) (x : Nat → ℂ) (j : Nat) : dense n W b x j = hiddenInput n W b x j := by
  unfold dense hiddenInput
  rw [add_comm]
  congr 1
  exact sum_congr rfl fun i _ => mul_comm _ _

/-- C206: the amplitude of `JaxRbm`. -/
theorem C206_rbm (n m : Nat) (W : Nat → Nat → ℂ) (b x : Nat → ℂ) (h : ∀ j < m, Regular (hiddenInput n W b x j)) :
    Complex.exp (jaxRbm n m W b x) = amplitude n m W b x := by
  unfold jaxRbm amplitude
  rw [exp_sumLogCosh_regular m _ fun j hj => by rw [dense_hidden]; exact h j hj]
  exact prod_congr rfl fun j _ => by rw [dense_hidden]

/-- one site, one hidden unit with weight `1 + i`. -/
example : ∀ j < 1, Regular (hiddenInput 1 (fun _ _ => 1 + Complex.I) (fun _ => 0) (fun _ => 1) j) := by
  intro j _; left; simp [hiddenInput]

theorem hidden_real (n : Nat) (W : Nat → Nat → ℝ) (b x : Nat → ℝ) (j : Nat) :
    hiddenInput n (fun i j => (W i j : ℂ)) (fun j => (b j : ℂ)) (fun i => (x i : ℂ)) j = ((b j + ∑ i ∈ range n, W i j * x i : ℝ) : ℂ) := by
  unfold hiddenInput; push_cast; rfl

theorem regular_real (r : ℝ) : Regular (r : ℂ) := by
  by_cases h : r = 0
  · right; rw [h]; simp
  · left; simpa using h

/-- C206: with real parameters the amplitude is right for every configuration. -/
theorem C206_rbm_real (n m : Nat) (W : Nat → Nat → ℝ) (b x : Nat → ℝ) :
    Complex.exp (jaxRbm n m (fun i j => (W i j : ℂ)) (fun j => (b j : ℂ)) fun i => (x i : ℂ))
      = ((∏ j ∈ range m, Real.cosh (b j + ∑ i ∈ range n, W i j * x i) : ℝ) : ℂ) := by
  rw [C206_rbm _ _ _ _ _ fun j _ => by rw [hidden_real]; exact regular_real _]
  unfold amplitude
  rw [Complex.ofReal_prod]
  exact prod_congr rfl fun j _ => by rw [hidden_real, Complex.ofReal_cosh]

theorem logcosh_real (r : ℝ) : logcosh (r : ℂ) = ((Real.log (Real.cosh r) : ℝ) : ℂ) := by
  have hs : ∃ s : ℝ, LegacyMachine.sgn ((r : ℂ)).re = (s : ℂ) := by
    unfold LegacyMachine.sgn
    split_ifs
    · exact ⟨-1, by simp⟩
    · exact ⟨1, by simp⟩
    · exact ⟨0, by simp⟩
  obtain ⟨s, hs⟩ := hs
  have e : ∃ t : ℝ, logcosh (r : ℂ) = (t : ℂ) := by
    unfold logcosh
    simp only [hs]
    refine ⟨r * s + Real.log (1 + Real.exp (-2 * (r * s))) - Real.log 2, ?_⟩
    rw [Complex.ofReal_sub, Complex.ofReal_add, Complex.ofReal_log (by positivity), Complex.ofReal_log (by norm_num)]
    push_cast
    rfl
  obtain ⟨t, ht⟩ := e
  have h := exp_logcosh_regular (r : ℂ) (regular_real r)
  rw [ht] at h ⊢
  rw [← Complex.ofReal_exp, ← Complex.ofReal_cosh] at h
  have h' := Complex.ofReal_injective h
  rw [← h', Real.log_exp]

/-- C206: `JaxRbmSpinPhase` with its real parameters: modulus from the first network, phase from the logarithm of the second. -/
theorem C206_rbm_phase (n m : Nat) (Wr Wp : Nat → Nat → ℝ) (br bp x : Nat → ℝ) :
    Complex.exp (jaxRbmPhase n m (fun i j => (Wr i j : ℂ)) (fun i j => (Wp i j : ℂ)) (fun j => (br j : ℂ)) (fun j => (bp j : ℂ))
        fun i => (x i : ℂ))
      = ((∏ j ∈ range m, Real.cosh (br j + ∑ i ∈ range n, Wr i j * x i) : ℝ) : ℂ)
        * Complex.exp (Complex.I * ((Real.log (∏ j ∈ range m, Real.cosh (bp j + ∑ i ∈ range n, Wp i j * x i)) : ℝ) : ℂ)) := by
  unfold jaxRbmPhase
  rw [one_mul, Complex.exp_add, C206_rbm_real]
  congr 2
  congr 1
  unfold jaxRbm sumLogCosh
  rw [Real.log_prod fun j _ => (Real.cosh_pos _).ne', Complex.ofReal_sum]
  exact sum_congr rfl fun j _ => by rw [dense_hidden, hidden_real, logcosh_real]

/-- C206: `DenseReal` is the affine map with the complex weights `Wr + i Wi` and the complex bias, whether the input is a real or a complex
    array. -/
theorem C206_dense_real (cplx : Bool) (n : Nat) (Wr Wi : Nat → Nat → ℝ) (br bi : Nat → ℝ) (x : Nat → ℂ) (j : Nat) :
    denseReal cplx n Wr Wi (some (br, bi)) x j
        = hiddenInput n (fun i j => (Wr i j : ℂ) + Complex.I * (Wi i j : ℂ)) (fun j => (br j : ℂ) + Complex.I * (bi j : ℂ)) x j
      ∧ denseReal cplx n Wr Wi none x j = hiddenInput n (fun i j => (Wr i j : ℂ) + Complex.I * (Wi i j : ℂ)) (fun _ => 0) x j := by
  have e : ∑ i ∈ range n, x i * (Wr i j : ℂ) + Complex.I * ∑ i ∈ range n, x i * (Wi i j : ℂ)
      = ∑ i ∈ range n, ((Wr i j : ℂ) + Complex.I * (Wi i j : ℂ)) * x i := by
    rw [mul_sum, ← sum_add_distrib]
    exact sum_congr rfl fun i _ => by ring
  have e' : ∑ i ∈ range n, x i * ((Wr i j : ℂ) + Complex.I * (Wi i j : ℂ)) = ∑ i ∈ range n, ((Wr i j : ℂ) + Complex.I * (Wi i j : ℂ)) * x i :=
    sum_congr rfl fun i _ => mul_comm _ _
  unfold denseReal hiddenInput
  cases cplx <;> simp only [e, e', if_true, Bool.false_eq_true, if_false] <;> exact ⟨by ring, by ring⟩

/-- C207: the initial real and imaginary weights of `DenseReal` are equal, for every key and all initialisers, and so are the biases: they
    are drawn with the same key. -/
theorem C207_dense_init_refuted {Key W B : Type} (split : Key → Key × Key) (wInit : Key → W) (bInit : Key → B) (useBias : Bool) (rng : Key) :
    ∃ w b, denseRealInit split wInit bInit useBias rng = (w, w, b) ∧ (∀ p, b = some p → p.1 = p.2) := by
  refine ⟨wInit (split rng).1, _, rfl, ?_⟩
  intro p hp
  cases useBias
  · simp at hp
  · simp only [if_true, Option.some.injEq] at hp; rw [← hp]

/-! ## Density matrices -/

/-- the input of pure hidden unit `j` of `NdmSpin`: complex weights times the configuration, plus the complex bias. -/
noncomputable def pureInput (n : Nat) (P : Purif) (j : Nat) (x : Nat → ℝ) : ℂ :=
  hiddenInput n (fun i j => (P.Wr i j : ℂ) + Complex.I * (P.Wi i j : ℂ)) (fun j => match P.bias with
    | none => (0 : ℂ)
    | some b => (b.1 j : ℂ) + Complex.I * (b.2.1 j : ℂ)) (fun i => (x i : ℂ)) j

theorem thetaR_eq (n : Nat) (P : Purif) (j : Nat) (x : Nat → ℝ) : thetaR n P x j = pureInput n P j x := by
  have e : ∑ i ∈ range n, (x i : ℂ) * ((P.Wr i j : ℂ) + Complex.I * (P.Wi i j : ℂ))
      = ∑ i ∈ range n, ((P.Wr i j : ℂ) + Complex.I * (P.Wi i j : ℂ)) * (x i : ℂ) := sum_congr rfl fun i _ => mul_comm _ _
  unfold thetaR pureInput hiddenInput
  simp only [e]
  cases P.bias with
  | none => simp only [zero_add]
  | some b => simp only [add_comm]

theorem star_ofReal (r : ℝ) : star (r : ℂ) = (r : ℂ) := Complex.conj_ofReal r
theorem star_I : star Complex.I = -Complex.I := Complex.conj_I

theorem thetaC_star (n : Nat) (P : Purif) (x : Nat → ℝ) (j : Nat) : thetaC n P x j = star (thetaR n P x j) := by
  have e : ∑ i ∈ range n, (x i : ℂ) * ((P.Wr i j : ℂ) - Complex.I * (P.Wi i j : ℂ))
      = star (∑ i ∈ range n, (x i : ℂ) * ((P.Wr i j : ℂ) + Complex.I * (P.Wi i j : ℂ))) := by
    rw [star_sum]
    refine sum_congr rfl fun i _ => ?_
    rw [star_mul', star_add, star_mul', star_ofReal, star_ofReal, star_ofReal, star_I]; ring
  unfold thetaC thetaR
  cases P.bias with
  | none => exact e
  | some b =>
    simp only [e, star_add, star_mul', star_ofReal, star_I]
    ring

/-- half of the input of a mixing hidden unit: what the row contributes. -/
noncomputable def mixHalf (n : Nat) (P : Purif) (j : Nat) (x : Nat → ℝ) : ℂ :=
  ∑ i ∈ range n, (x i : ℂ) * ((P.Vr i j : ℂ) + Complex.I * (P.Vi i j : ℂ)) + (match P.bias with
    | none => (0 : ℂ)
    | some b => ((b.2.2 j : ℝ) : ℂ))

theorem thetaM_half (n : Nat) (P : Purif) (r c : Nat → ℝ) (j : Nat) : thetaM n P r c j = mixHalf n P j r + star (mixHalf n P j c) := by
  have e : ∑ i ∈ range n, (c i : ℂ) * ((P.Vr i j : ℂ) - Complex.I * (P.Vi i j : ℂ))
      = star (∑ i ∈ range n, (c i : ℂ) * ((P.Vr i j : ℂ) + Complex.I * (P.Vi i j : ℂ))) := by
    rw [star_sum]
    refine sum_congr rfl fun i _ => ?_
    rw [star_mul', star_add, star_mul', star_ofReal, star_ofReal, star_ofReal, star_I]; ring
  unfold thetaM mixHalf
  cases P.bias with
  | none => simp only [e, add_zero]
  | some b =>
    simp only [e, star_add, star_ofReal]
    ring

theorem thetaR_congr (n : Nat) (P : Purif) (x y : Nat → ℝ) (h : ∀ i < n, x i = y i) (j : Nat) : thetaR n P x j = thetaR n P y j := by
  have e : ∑ i ∈ range n, (x i : ℂ) * ((P.Wr i j : ℂ) + Complex.I * (P.Wi i j : ℂ))
      = ∑ i ∈ range n, (y i : ℂ) * ((P.Wr i j : ℂ) + Complex.I * (P.Wi i j : ℂ)) :=
    sum_congr rfl fun i hi => by rw [h i (mem_range.1 hi)]
  unfold thetaR; simp only [e]

theorem mixHalf_congr (n : Nat) (P : Purif) (x y : Nat → ℝ) (h : ∀ i < n, x i = y i) (j : Nat) : mixHalf n P j x = mixHalf n P j y := by
  have e : ∑ i ∈ range n, (x i : ℂ) * ((P.Vr i j : ℂ) + Complex.I * (P.Vi i j : ℂ))
      = ∑ i ∈ range n, (y i : ℂ) * ((P.Vr i j : ℂ) + Complex.I * (P.Vi i j : ℂ)) :=
    sum_congr rfl fun i hi => by rw [h i (mem_range.1 hi)]
  unfold mixHalf; rw [e]

theorem purification_split (n p q : Nat) (P : Purif) (r c : Nat → ℝ) (F : ℂ → ℂ) :
    ∏ j ∈ range (2 * p + q), F (purification n p q P (dmInput n r (some c)) j)
      = (∏ j ∈ range p, F (thetaR n P r j)) * (∏ k ∈ range q, F (mixHalf n P k r + star (mixHalf n P k c)))
        * ∏ j ∈ range p, F (star (thetaR n P c j)) := by
  have hr : ∀ i < n, dmInput n r (some c) i = r i := fun i hi => by simp [dmInput, hi]
  have hc : ∀ i < n, (fun i => dmInput n r (some c) (n + i)) i = c i := fun i hi => by simp [dmInput]
  rw [show 2 * p + q = p + q + p by ring, prod_range_add, prod_range_add]
  congr 1
  · congr 1
    · refine prod_congr rfl fun j hj => ?_
      unfold purification
      simp only [if_pos (mem_range.1 hj)]
      rw [thetaR_congr n P _ r hr]
    · refine prod_congr rfl fun j hj => ?_
      unfold purification
      have h1 : ¬ p + j < p := by omega
      have h2 : p + j < p + q := by have := mem_range.1 hj; omega
      simp only [if_neg h1, if_pos h2]
      rw [thetaM_half, mixHalf_congr n P _ r hr, mixHalf_congr n P _ c hc, Nat.add_sub_cancel_left]
  · refine prod_congr rfl fun j hj => ?_
    unfold purification
    have h1 : ¬ p + q + j < p := by omega
    have h2 : ¬ p + q + j < p + q := by omega
    simp only [if_neg h1, if_neg h2]
    rw [thetaC_star, thetaR_congr n P _ c hc, Nat.add_sub_cancel_left]

/-- the entry of the density matrix. -/
noncomputable def ndm (n p q : Nat) (P : Purif) (r c : Nat → ℝ) : ℂ := Complex.exp (ndmLogVal n p q P r (some c))

/-- one factor of the value: the hyperbolic cosine, or 1 on the imaginary axis. -/
noncomputable def factor (z : ℂ) : ℂ := if z.re = 0 then 1 else Complex.cosh z

theorem ndm_factors (n p q : Nat) (P : Purif) (r c : Nat → ℝ) :
    ndm n p q P r c = (∏ j ∈ range p, factor (thetaR n P r j)) * (∏ k ∈ range q, factor (mixHalf n P k r + star (mixHalf n P k c)))
        * ∏ j ∈ range p, factor (star (thetaR n P c j)) := by
  unfold ndm ndmLogVal
  rw [exp_sumLogCosh]
  exact purification_split n p q P r c factor

theorem factor_star (z : ℂ) : factor (star z) = star (factor z) := by
  unfold factor
  have : (star z).re = z.re := Complex.conj_re z
  rw [this]
  split_ifs
  · simp
  · exact Complex.cosh_conj z

theorem factor_regular (z : ℂ) (h : Regular z) : factor z = Complex.cosh z := by
  have := exp_logcosh_regular z h
  rw [exp_logcosh] at this
  exact this

/-- C206: the value of `NdmSpin`: the density matrix of a purification. -/
theorem C206_ndm_value (n p q : Nat) (P : Purif) (r c : Nat → ℝ) (hr : ∀ j < p, Regular (pureInput n P j r))
    (hc : ∀ j < p, Regular (pureInput n P j c)) (hm : ∀ k < q, Regular (mixHalf n P k r + star (mixHalf n P k c))) :
    ndm n p q P r c = purified p q (pureInput n P) (mixHalf n P) r c := by
  rw [ndm_factors]
  unfold purified
  simp only [thetaR_eq]
  rw [prod_congr rfl fun j hj => factor_regular _ (hr j (mem_range.1 hj)), prod_congr rfl fun k hk => factor_regular _ (hm k (mem_range.1 hk)),
    star_prod]
  have : ∏ j ∈ range p, factor (star (pureInput n P j c)) = ∏ j ∈ range p, star (Complex.cosh (pureInput n P j c)) :=
    prod_congr rfl fun j hj => by rw [factor_star, factor_regular _ (hc j (mem_range.1 hj))]
  rw [this]
  ring

/-- C206: row and column may be given together, as one configuration of the doubled space. -/
theorem C206_ndm_joined (n p q : Nat) (P : Purif) (r c : Nat → ℝ) (x : Nat → ℝ) (hr : ∀ i < n, x i = r i) (hc : ∀ i < n, x (n + i) = c i) :
    Complex.exp (ndmLogVal n p q P x none) = ndm n p q P r c := by
  unfold ndm ndmLogVal
  congr 2
  funext j
  have h1 : ∀ i < n, dmInput n x none i = dmInput n r (some c) i := fun i hi => by simp [dmInput, hi, hr i hi]
  have h2 : ∀ i < n, (fun i => dmInput n x none (n + i)) i = (fun i => dmInput n r (some c) (n + i)) i := fun i hi => by simp [dmInput, hc i hi]
  unfold purification
  simp only [thetaC_star, thetaM_half]
  rw [thetaR_congr n P _ _ h1, thetaR_congr n P _ _ h2, mixHalf_congr n P _ _ h1, mixHalf_congr n P _ _ h2]

/-- C206: the density matrix is hermitian, for all parameters and configurations. -/
theorem C206_ndm_hermitian (n p q : Nat) (P : Purif) (r c : Nat → ℝ) : ndm n p q P r c = star (ndm n p q P c r) := by
  rw [ndm_factors, ndm_factors, star_mul', star_mul', star_prod, star_prod, star_prod]
  rw [prod_congr rfl fun j _ => (factor_star (thetaR n P c j))]
  have h3 : ∏ j ∈ range p, star (factor (star (thetaR n P r j))) = ∏ j ∈ range p, factor (thetaR n P r j) :=
    prod_congr rfl fun j _ => by rw [factor_star, star_star]
  have : ∏ k ∈ range q, factor (mixHalf n P k r + star (mixHalf n P k c)) = ∏ k ∈ range q, star (factor (mixHalf n P k c + star (mixHalf n P k r))) :=
    prod_congr rfl fun k _ => by rw [← factor_star, star_add, star_star, add_comm]
  rw [this, h3]
  ring

theorem purified_gram {α : Type} (p q : Nat) (u w : Nat → α → ℂ) : IsGram (purified p q u w) := by
  unfold purified
  exact IsGram.mul (IsGram.rank_one fun r => ∏ j ∈ range p, Complex.cosh (u j r)) (IsGram.prod q fun k _ => cosh_gram (w k))

/-- C206: the density matrix is positive semidefinite on every finite family of configurations on which no hidden unit has a nonzero purely
    imaginary input. -/
theorem C206_ndm_positive (n p q : Nat) (P : Purif) (m : Nat) (x : Nat → Nat → ℝ) (w : Nat → ℂ)
    (hu : ∀ a < m, ∀ j < p, Regular (pureInput n P j (x a)))
    (hm : ∀ a < m, ∀ b < m, ∀ k < q, Regular (mixHalf n P k (x a) + star (mixHalf n P k (x b)))) :
    ∃ t : ℝ, 0 ≤ t ∧ ∑ a ∈ range m, ∑ b ∈ range m, star (w a) * ndm n p q P (x a) (x b) * w b = (t : ℂ) := by
  obtain ⟨t, h0, h⟩ := IsGram.positive (purified_gram p q (pureInput n P) (mixHalf n P)) m x w
  refine ⟨t, h0, ?_⟩
  rw [← h]
  refine sum_congr rfl fun a ha => sum_congr rfl fun b hb => ?_
  rw [C206_ndm_value n p q P (x a) (x b) (hu a (mem_range.1 ha)) (hu b (mem_range.1 hb)) (hm a (mem_range.1 ha) b (mem_range.1 hb))]

/-- two sites, one pure and one mixing unit with biases larger than the weights: every family of spin configurations qualifies. -/
example (m : Nat) (x : Nat → Nat → ℝ) (hx : ∀ a i, x a i = 1 ∨ x a i = -1) :
    let P : Purif := ⟨fun _ _ => 1 / 4, fun _ _ => 1, fun _ _ => 1 / 4, fun _ _ => 1, some (fun _ => 1, fun _ => 1, fun _ => 1)⟩
    (∀ a < m, ∀ j < 1, Regular (pureInput 2 P j (x a))) ∧ ∀ a < m, ∀ b < m, ∀ k < 1, Regular (mixHalf 2 P k (x a) + star (mixHalf 2 P k (x b))) := by
  refine ⟨fun a _ j _ => Or.inl ?_, fun a _ b _ k _ => Or.inl ?_⟩
  · simp only [pureInput, hiddenInput, sum_range_succ, range_zero, sum_empty]
    simp
    rcases hx a 0 with h0 | h0 <;> rcases hx a 1 with h1 | h1 <;> rw [h0, h1] <;> norm_num
  · simp only [mixHalf, sum_range_succ, range_zero, sum_empty]
    simp
    rcases hx a 0 with h0 | h0 <;> rcases hx a 1 with h1 | h1 <;> rcases hx b 0 with h2 | h2 <;> rcases hx b 1 with h3 | h3 <;>
      rw [h0, h1, h2, h3] <;> norm_num

theorem factor_ne (z : ℂ) : factor z ≠ 0 := by
  have := exp_logcosh z
  unfold factor
  rw [← this]
  exact Complex.exp_ne_zero _

theorem factor_real (r : ℝ) : ∃ q : ℝ, 0 < q ∧ factor (r : ℂ) = (q : ℂ) :=
  ⟨Real.cosh r, Real.cosh_pos r, by rw [factor_regular _ (regular_real r), Complex.ofReal_cosh]⟩

/-- C206: the diagonal entries are positive, so that the state can be normalised and its diagonal sampled. -/
theorem C206_ndm_diagonal (n p q : Nat) (P : Purif) (r : Nat → ℝ) : ∃ t : ℝ, 0 < t ∧ ndm n p q P r r = (t : ℂ) := by
  rw [ndm_factors]
  have h1 : ∀ k, ∃ t : ℝ, 0 < t ∧ factor (mixHalf n P k r + star (mixHalf n P k r)) = (t : ℂ) := by
    intro k
    have : mixHalf n P k r + star (mixHalf n P k r) = ((2 * (mixHalf n P k r).re : ℝ) : ℂ) := Complex.add_conj _
    rw [this]
    exact factor_real _
  choose t ht e using h1
  refine ⟨(∏ j ∈ range p, Complex.normSq (factor (thetaR n P r j))) * ∏ k ∈ range q, t k,
    mul_pos (prod_pos fun j _ => Complex.normSq_pos.2 (factor_ne _)) (prod_pos fun k _ => ht k), ?_⟩
  rw [prod_congr rfl fun k _ => e k, prod_congr rfl fun j _ => factor_star (thetaR n P r j)]
  push_cast
  have : ∀ j, ((Complex.normSq (factor (thetaR n P r j)) : ℝ) : ℂ) = factor (thetaR n P r j) * star (factor (thetaR n P r j)) :=
    fun j => (Complex.mul_conj _).symm
  simp only [this]
  rw [prod_mul_distrib]
  ring

/-- C207: without hidden biases, the mixing units do not contribute to the entry of any pair of opposite configurations, whatever the weights
    are: it is that of the machine without them; documented is the product of the cosines of the imaginary inputs. -/
theorem C207_ndm_opposite_refuted (n p q : Nat) (P : Purif) (hb : P.bias = none) (r c : Nat → ℝ) (h : ∀ i < n, c i = -r i) :
    ndm n p q P r c = ndm n p 0 P r c
    ∧ ∏ k ∈ range q, Complex.cosh (mixHalf n P k r + star (mixHalf n P k c)) = ((∏ k ∈ range q, Real.cos (2 * ∑ i ∈ range n, r i * P.Vi i k) : ℝ) : ℂ) := by
  have hm : ∀ k, mixHalf n P k r + star (mixHalf n P k c) = ((2 * ∑ i ∈ range n, r i * P.Vi i k : ℝ) : ℂ) * Complex.I := by
    intro k
    unfold mixHalf
    simp only [hb, add_zero]
    rw [star_sum, ← sum_add_distrib]
    push_cast
    rw [mul_sum, sum_mul]
    refine sum_congr rfl fun i hi => ?_
    rw [h i (mem_range.1 hi), star_mul', star_add, star_mul', star_ofReal, star_ofReal, star_ofReal, star_I]
    push_cast
    ring
  constructor
  · rw [ndm_factors, ndm_factors]
    have : ∏ k ∈ range q, factor (mixHalf n P k r + star (mixHalf n P k c)) = 1 := by
      refine prod_eq_one fun k _ => ?_
      rw [hm k]
      unfold factor
      rw [if_pos (by simp)]
    rw [this, range_zero, prod_empty]
  · rw [Complex.ofReal_prod]
    refine prod_congr rfl fun k _ => ?_
    rw [hm k, Complex.cosh_mul_I, Complex.ofReal_cos]

/-- weights for which positivity fails: two sites, one mixing unit, no hidden bias. -/
noncomputable def badWeights (t : ℝ) : Purif := ⟨fun _ _ => 0, fun _ _ => 0, fun _ _ => t, fun i _ => if i = 0 then Real.pi / 2 else 0, none⟩

/-- the configurations `++`, `+-`, `-+`. -/
def badConfig (a i : Nat) : ℝ := if a = 1 ∧ i = 1 ∨ a = 2 ∧ i = 0 then -1 else 1

/-- C207: `NdmSpin(hilbert, alpha=0, beta=1/2, use_hidden_bias=False)` on two spins is not a density matrix: for all weights of this family a
    quadratic form is negative. -/
theorem C207_ndm_positive_refuted (t : ℝ) (ht : t ≠ 0) :
    ∃ w : Nat → ℂ, ∃ s : ℝ, s < 0 ∧
      ∑ a ∈ range 3, ∑ b ∈ range 3, star (w a) * ndm 2 0 1 (badWeights t) (badConfig a) (badConfig b) * w b = (s : ℂ) := by
  have u0 : mixHalf 2 (badWeights t) 0 (badConfig 0) = ((2 * t : ℝ) : ℂ) + Complex.I * ((Real.pi / 2 : ℝ) : ℂ) := by
    simp [mixHalf, badWeights, badConfig, sum_range_succ]; ring
  have u1 : mixHalf 2 (badWeights t) 0 (badConfig 1) = Complex.I * ((Real.pi / 2 : ℝ) : ℂ) := by
    simp [mixHalf, badWeights, badConfig, sum_range_succ]
  have u2 : mixHalf 2 (badWeights t) 0 (badConfig 2) = -(Complex.I * ((Real.pi / 2 : ℝ) : ℂ)) := by
    simp [mixHalf, badWeights, badConfig, sum_range_succ]
  have en : ∀ a b, ndm 2 0 1 (badWeights t) (badConfig a) (badConfig b)
      = factor (mixHalf 2 (badWeights t) 0 (badConfig a) + star (mixHalf 2 (badWeights t) 0 (badConfig b))) := by
    intro a b; rw [ndm_factors]; simp
  have st : star (Complex.I * ((Real.pi / 2 : ℝ) : ℂ)) = -(Complex.I * ((Real.pi / 2 : ℝ) : ℂ)) := by
    rw [star_mul', star_I, star_ofReal]; ring
  have fre : ∀ r : ℝ, factor (r : ℂ) = ((Real.cosh r : ℝ) : ℂ) := fun r => by rw [factor_regular _ (regular_real r), Complex.ofReal_cosh]
  have fpi : ∀ r : ℝ, r ≠ 0 → factor ((r : ℂ) + Complex.I * (Real.pi : ℂ)) = -((Real.cosh r : ℝ) : ℂ) := by
    intro r hr
    rw [factor_regular _ (Or.inl (by simpa using hr)), mul_comm Complex.I, Complex.cosh_add, Complex.cosh_mul_I, Complex.sinh_mul_I]
    simp
  have fpi' : ∀ r : ℝ, r ≠ 0 → factor ((r : ℂ) - Complex.I * (Real.pi : ℂ)) = -((Real.cosh r : ℝ) : ℂ) := by
    intro r hr
    rw [factor_regular _ (Or.inl (by simpa using hr)), mul_comm Complex.I, Complex.cosh_sub, Complex.cosh_mul_I, Complex.sinh_mul_I]
    simp
  have fim : ∀ r : ℝ, factor (Complex.I * (r : ℂ)) = 1 := fun r => by unfold factor; rw [if_pos (by simp)]
  have h2 : 2 * t ≠ 0 := mul_ne_zero two_ne_zero ht
  have e00 : ndm 2 0 1 (badWeights t) (badConfig 0) (badConfig 0) = ((Real.cosh (4 * t) : ℝ) : ℂ) := by
    rw [en, u0, star_add, st, star_ofReal, ← fre]; congr 1; push_cast; ring
  have e01 : ndm 2 0 1 (badWeights t) (badConfig 0) (badConfig 1) = ((Real.cosh (2 * t) : ℝ) : ℂ) := by
    rw [en, u0, u1, st, ← fre]; congr 1; ring
  have e10 : ndm 2 0 1 (badWeights t) (badConfig 1) (badConfig 0) = ((Real.cosh (2 * t) : ℝ) : ℂ) := by
    rw [C206_ndm_hermitian, e01, star_ofReal]
  have e02 : ndm 2 0 1 (badWeights t) (badConfig 0) (badConfig 2) = -((Real.cosh (2 * t) : ℝ) : ℂ) := by
    rw [en, u0, u2, star_neg, st, ← fpi _ h2]; congr 1; push_cast; ring
  have e20 : ndm 2 0 1 (badWeights t) (badConfig 2) (badConfig 0) = -((Real.cosh (2 * t) : ℝ) : ℂ) := by
    rw [C206_ndm_hermitian, e02, star_neg, star_ofReal]
  have e11 : ndm 2 0 1 (badWeights t) (badConfig 1) (badConfig 1) = 1 := by
    rw [en, u1, st, ← fim 0]; congr 1; push_cast; ring
  have e22 : ndm 2 0 1 (badWeights t) (badConfig 2) (badConfig 2) = 1 := by
    rw [en, u2, star_neg, st, ← fim 0]; congr 1; push_cast; ring
  have e12 : ndm 2 0 1 (badWeights t) (badConfig 1) (badConfig 2) = 1 := by
    rw [en, u1, u2, star_neg, st, ← fim Real.pi]; congr 1; push_cast; ring
  have e21 : ndm 2 0 1 (badWeights t) (badConfig 2) (badConfig 1) = 1 := by
    rw [C206_ndm_hermitian, e12]; simp
  have hC : 0 < Real.cosh (2 * t) := Real.cosh_pos _
  have h4 : Real.cosh (4 * t) = 2 * Real.cosh (2 * t) ^ 2 - 1 := by
    rw [show 4 * t = 2 * (2 * t) by ring, Real.cosh_two_mul, Real.sinh_sq]; ring
  refine ⟨fun a => if a = 0 then ((-1 : ℝ) : ℂ) else if a = 1 then ((Real.cosh (2 * t) : ℝ) : ℂ) else ((-Real.cosh (2 * t) : ℝ) : ℂ),
    -2 * Real.cosh (2 * t) ^ 2 - 1, by nlinarith, ?_⟩
  simp only [sum_range_succ, range_zero, sum_empty, e00, e01, e02, e10, e11, e12, e20, e21, e22, h4]
  simp only [if_true, one_ne_zero, if_false, OfNat.ofNat_ne_zero, OfNat.ofNat_ne_one, star_ofReal]
  push_cast
  ring

/-- the documented function is positive for the same weights and all others: the failure is that of `logcosh`. -/
theorem C207_ndm_positive_partial (n p q : Nat) (P : Purif) (m : Nat) (x : Nat → Nat → ℝ) (w : Nat → ℂ) :
    ∃ t : ℝ, 0 ≤ t ∧ ∑ a ∈ range m, ∑ b ∈ range m, star (w a) * purified p q (pureInput n P) (mixHalf n P) (x a) (x b) * w b = (t : ℂ) :=
  IsGram.positive (purified_gram p q (pureInput n P) (mixHalf n P)) m x w

/-! ## NdmSpinPhase -/

/-- C207: without hidden biases `NdmSpinPhase` cannot be evaluated, on any configuration. -/
theorem C207_phase_bias_refuted (n p q : Nat) (P : PhaseParams) (r c : Nat → ℝ) : ndmPhaseLogVal false n p q P r c = .error .typeError := rfl

/-- half of the input of a mixing unit of `NdmSpinPhase`. -/
noncomputable def phaseHalf (n : Nat) (P : PhaseParams) (k : Nat) (x : Nat → ℝ) : ℂ :=
  ∑ i ∈ range n, (x i : ℂ) * ((1 / 2 : ℂ) * (P.Ur i k : ℂ) + Complex.I / 2 * (P.Ui i k : ℂ)) + ((P.d k / 2 : ℝ) : ℂ)

theorem star_half : star (1 / 2 : ℂ) = 1 / 2 := by
  have : (1 / 2 : ℂ) = ((1 / 2 : ℝ) : ℂ) := by push_cast; rfl
  rw [this, star_ofReal]

theorem star_Ihalf : star (Complex.I / 2) = -(Complex.I / 2) := by
  have : Complex.I / 2 = ((1 / 2 : ℝ) : ℂ) * Complex.I := by push_cast; ring
  rw [this, star_mul', star_I, star_ofReal]; ring

theorem mixing_half (n : Nat) (P : PhaseParams) (r c : Nat → ℝ) (k : Nat) :
    denseMixing n P.Ur P.Ui (some P.d) r c k = phaseHalf n P k r + star (phaseHalf n P k c) := by
  have e : ∑ i ∈ range n, (c i : ℂ) * ((1 / 2 : ℂ) * (P.Ur i k : ℂ) - Complex.I / 2 * (P.Ui i k : ℂ))
      = star (∑ i ∈ range n, (c i : ℂ) * ((1 / 2 : ℂ) * (P.Ur i k : ℂ) + Complex.I / 2 * (P.Ui i k : ℂ))) := by
    rw [star_sum]
    refine sum_congr rfl fun i _ => ?_
    rw [star_mul', star_add, star_mul', star_mul', star_ofReal, star_ofReal, star_ofReal, star_half, star_Ihalf]; ring
  unfold denseMixing phaseHalf
  simp only [e, star_add, star_ofReal]
  push_cast
  ring

/-- logarithm of the modulus of the pure part, for one configuration. -/
noncomputable def logMod (n p : Nat) (W : Nat → Nat → ℝ) (b : Nat → ℝ) (x : Nat → ℝ) : ℝ :=
  ∑ j ∈ range p, Real.log (Real.cosh (∑ i ∈ range n, x i * W i j + b j))

theorem sum_logMod (n p : Nat) (W : Nat → Nat → ℝ) (b : Nat → ℝ) (x : Nat → ℝ) :
    sumLogCosh p (fun j => ∑ i ∈ range n, (x i : ℂ) * (W i j : ℂ) + (b j : ℂ)) = ((logMod n p W b x : ℝ) : ℂ) := by
  unfold sumLogCosh logMod
  rw [Complex.ofReal_sum]
  refine sum_congr rfl fun j _ => ?_
  rw [← logcosh_real]
  push_cast
  rfl

/-- logarithm of the documented pure state: half the modulus network plus `i/2` times the phase network plus the visible biases. -/
noncomputable def phasePure (n p : Nat) (P : PhaseParams) (x : Nat → ℝ) : ℂ :=
  1 / 2 * ((logMod n p P.Wm P.bm x : ℝ) : ℂ) + Complex.I / 2 * ((logMod n p P.Wp P.bp x : ℝ) : ℂ)
    + (match P.visible with
      | none => (0 : ℂ)
      | some b => ∑ i ∈ range n, (x i : ℂ) * (1 / 2 * (b.1 i : ℂ) + Complex.I / 2 * (b.2 i : ℂ)))

/-- C206: the value of `NdmSpinPhase` with hidden biases: a pure state `e^{φ(r)} (e^{φ(c)})^*` times the mixing part. -/
theorem C206_ndm_phase_value (n p q : Nat) (P : PhaseParams) (r c : Nat → ℝ)
    (hm : ∀ k < q, Regular (phaseHalf n P k r + star (phaseHalf n P k c))) :
    ∃ l, ndmPhaseLogVal true n p q P r c = .ok l
      ∧ Complex.exp l = Complex.exp (phasePure n p P r) * star (Complex.exp (phasePure n p P c))
          * ∏ k ∈ range q, Complex.cosh (phaseHalf n P k r + star (phaseHalf n P k c)) := by
  refine ⟨_, rfl, ?_⟩
  simp only [if_true]
  rw [sum_logMod, sum_logMod, sum_logMod, sum_logMod]
  have hst : star (Complex.exp (phasePure n p P c)) = Complex.exp (star (phasePure n p P c)) := (Complex.exp_conj _).symm
  rw [hst, add_right_comm, Complex.exp_add, exp_sumLogCosh_regular q _ fun k hk => by rw [mixing_half]; exact hm k hk,
    prod_congr rfl fun k _ => by rw [mixing_half], ← Complex.exp_add]
  congr 2
  unfold phasePure
  rw [star_add, star_add, star_mul', star_mul', star_half, star_Ihalf, star_ofReal, star_ofReal]
  cases P.visible with
  | none => simp; ring
  | some b =>
    simp only [biasModPhase]
    have e : star (∑ i ∈ range n, (c i : ℂ) * (1 / 2 * (b.1 i : ℂ) + Complex.I / 2 * (b.2 i : ℂ)))
        = ∑ i ∈ range n, (c i : ℂ) * (1 / 2 * (b.1 i : ℂ) - Complex.I / 2 * (b.2 i : ℂ)) := by
      rw [star_sum]
      refine sum_congr rfl fun i _ => ?_
      rw [star_mul', star_add, star_mul', star_mul', star_ofReal, star_ofReal, star_ofReal, star_half, star_Ihalf]; ring
    have e2 : 1 / 2 * ∑ i ∈ range n, ((r i : ℂ) + (c i : ℂ)) * (b.1 i : ℂ) + Complex.I / 2 * ∑ i ∈ range n, ((r i : ℂ) - (c i : ℂ)) * (b.2 i : ℂ)
        = ∑ i ∈ range n, (r i : ℂ) * (1 / 2 * (b.1 i : ℂ) + Complex.I / 2 * (b.2 i : ℂ))
          + ∑ i ∈ range n, (c i : ℂ) * (1 / 2 * (b.1 i : ℂ) - Complex.I / 2 * (b.2 i : ℂ)) := by
      rw [mul_sum, mul_sum, ← sum_add_distrib, ← sum_add_distrib]
      exact sum_congr rfl fun i _ => by ring
    rw [e, e2]
    ring

/-- C206: `NdmSpinPhase` with hidden biases is hermitian and positive semidefinite on every finite family of configurations on which no mixing
    unit has a nonzero purely imaginary input. -/
theorem C206_ndm_phase_positive (n p q : Nat) (P : PhaseParams) (m : Nat) (x : Nat → Nat → ℝ)
    (hm : ∀ a < m, ∀ b < m, ∀ k < q, Regular (phaseHalf n P k (x a) + star (phaseHalf n P k (x b))))
    (l : Nat → Nat → ℂ) (hl : ∀ a < m, ∀ b < m, ndmPhaseLogVal true n p q P (x a) (x b) = .ok (l a b)) :
    (∀ a < m, ∀ b < m, Complex.exp (l a b) = star (Complex.exp (l b a)))
    ∧ ∀ w : Nat → ℂ, ∃ t : ℝ, 0 ≤ t ∧ ∑ a ∈ range m, ∑ b ∈ range m, star (w a) * Complex.exp (l a b) * w b = (t : ℂ) := by
  have G : IsGram fun r c : Nat → ℝ => Complex.exp (phasePure n p P r) * star (Complex.exp (phasePure n p P c))
      * ∏ k ∈ range q, Complex.cosh (phaseHalf n P k r + star (phaseHalf n P k c)) :=
    IsGram.mul (IsGram.rank_one fun r => Complex.exp (phasePure n p P r)) (IsGram.prod q fun k _ => cosh_gram (phaseHalf n P k))
  have e : ∀ a < m, ∀ b < m, Complex.exp (l a b) = Complex.exp (phasePure n p P (x a)) * star (Complex.exp (phasePure n p P (x b)))
      * ∏ k ∈ range q, Complex.cosh (phaseHalf n P k (x a) + star (phaseHalf n P k (x b))) := by
    intro a ha b hb
    obtain ⟨l', h1, h2⟩ := C206_ndm_phase_value n p q P (x a) (x b) (hm a ha b hb)
    rw [hl a ha b hb] at h1
    injection h1 with h1
    rw [h1, h2]
  refine ⟨fun a ha b hb => ?_, fun w => ?_⟩
  · rw [e a ha b hb, e b hb a ha]
    exact IsGram.hermitian G (x a) (x b)
  · obtain ⟨t, h0, h⟩ := IsGram.positive G m x w
    refine ⟨t, h0, ?_⟩
    rw [← h]
    exact sum_congr rfl fun a ha => sum_congr rfl fun b hb => by rw [e a (mem_range.1 ha) b (mem_range.1 hb)]

/-- two sites, one mixing unit: every family of spin configurations qualifies if the bias is larger than the weights. -/
example (m : Nat) (x : Nat → Nat → ℝ) (hx : ∀ a i, x a i = 1 ∨ x a i = -1) :
    let P : PhaseParams := ⟨fun _ _ => 1, fun _ => 1, fun _ _ => 2, fun _ => 3, fun _ _ => 1 / 4, fun _ _ => 1, fun _ => 1, none⟩
    ∀ a < m, ∀ b < m, ∀ k < 1, Regular (phaseHalf 2 P k (x a) + star (phaseHalf 2 P k (x b))) := by
  refine fun a _ b _ k _ => Or.inl ?_
  simp only [phaseHalf, sum_range_succ, range_zero, sum_empty]
  simp
  rcases hx a 0 with h0 | h0 <;> rcases hx a 1 with h1 | h1 <;> rcases hx b 0 with h2 | h2 <;> rcases hx b 1 with h3 | h3 <;>
    rw [h0, h1, h2, h3] <;> norm_num

end Verif.LegacyJax
