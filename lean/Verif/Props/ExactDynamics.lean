import Verif.Model.ExactDynamics
import Mathlib.Analysis.Calculus.Deriv.Prod
import Mathlib.Analysis.Calculus.Deriv.Star
import Mathlib.Analysis.Calculus.Deriv.Pi
import Mathlib.Analysis.Calculus.Deriv.Mul
import Mathlib.Analysis.Calculus.Deriv.Add
import Mathlib.Analysis.Calculus.MeanValue
import Mathlib.Analysis.ODE.Gronwall
import Mathlib.Analysis.Calculus.Deriv.MeanValue
import Mathlib.Data.Complex.BigOperators
import Mathlib.Tactic.Linarith
import Mathlib.Tactic.Ring
import Mathlib.Tactic.Module

/-! C98: the equations of motion of the exact propagation. C99: estimates and the driver. -/

set_option linter.unusedSectionVars false
set_option linter.unusedVariables false

namespace Verif.ExactDynamics
open Verif.Hilbert

variable {ι : Type} [Fintype ι]

/-! ## Specification -/

/-- a solution of ψ' = f(ψ). -/
def Solves (f : (ι → ℂ) → ι → ℂ) (ψ : ℝ → ι → ℂ) : Prop := ∀ t, HasDerivAt ψ (f (ψ t)) t

/-- squared norm. -/
def normSq (ψ : ι → ℂ) : ℝ := ∑ i, Complex.normSq (ψ i)

/-- ⟨ψ|O|ψ⟩. -/
def expect (O : Matrix ι ι ℂ) (ψ : ι → ℂ) : ℂ := ∑ i, ∑ j, star (ψ i) * O i j * ψ j

/-! ## Lemmas -/

theorem expect_eq (O : Matrix ι ι ℂ) (ψ : ι → ℂ) : expect O ψ = vdot ψ (O.mulVec ψ) := by
  unfold expect vdot
  apply Finset.sum_congr rfl
  intro i _
  simp only [Matrix.mulVec, dotProduct, Finset.mul_sum]
  apply Finset.sum_congr rfl
  intro j _
  ring

theorem vdot_self (ψ : ι → ℂ) : vdot ψ ψ = (normSq ψ : ℂ) := by
  unfold vdot normSq
  rw [Complex.ofReal_sum]
  apply Finset.sum_congr rfl
  intro i _
  exact (Complex.normSq_eq_conj_mul_self).symm

theorem normSq_nonneg (ψ : ι → ℂ) : 0 ≤ normSq ψ := Finset.sum_nonneg fun i _ => Complex.normSq_nonneg _

theorem vdot_add_left (a b c : ι → ℂ) : vdot (a + b) c = vdot a c + vdot b c := by
  simp [vdot, add_mul, Finset.sum_add_distrib]

theorem vdot_add_right (a b c : ι → ℂ) : vdot a (b + c) = vdot a b + vdot a c := by
  simp [vdot, mul_add, Finset.sum_add_distrib]

theorem vdot_smul_left (k : ℂ) (a b : ι → ℂ) : vdot (k • a) b = star k * vdot a b := by
  simp [vdot, Finset.mul_sum, mul_assoc]

theorem vdot_smul_right (k : ℂ) (a b : ι → ℂ) : vdot a (k • b) = k * vdot a b := by
  simp only [vdot, Finset.mul_sum, Pi.smul_apply, smul_eq_mul]
  apply Finset.sum_congr rfl
  intro i _
  ring

theorem vdot_neg_left (a b : ι → ℂ) : vdot (-a) b = -vdot a b := by
  simp [vdot]

theorem vdot_neg_right (a b : ι → ℂ) : vdot a (-b) = -vdot a b := by
  simp [vdot]

theorem star_vdot (a b : ι → ℂ) : star (vdot a b) = vdot b a := by
  simp only [vdot, star_sum, star_mul', star_star]
  apply Finset.sum_congr rfl
  intro i _
  ring

theorem vdot_mulVec (H : Matrix ι ι ℂ) (hH : H.IsHermitian) (a b : ι → ℂ) : vdot a (H.mulVec b) = vdot (H.mulVec a) b := by
  simp only [vdot, Matrix.mulVec, dotProduct, Finset.mul_sum, star_sum, Finset.sum_mul, star_mul']
  rw [Finset.sum_comm]
  apply Finset.sum_congr rfl
  intro i _
  apply Finset.sum_congr rfl
  intro j _
  have : star (H i j) = H j i := hH.apply j i
  rw [this]
  ring

theorem star_mean (H : Matrix ι ι ℂ) (hH : H.IsHermitian) (a : ι → ℂ) : star (vdot a (H.mulVec a)) = vdot a (H.mulVec a) := by
  rw [star_vdot, ← vdot_mulVec H hH]

theorem vdot_deriv {ψ φ : ℝ → ι → ℂ} {ψ' φ' : ι → ℂ} {t : ℝ} (h1 : HasDerivAt ψ ψ' t) (h2 : HasDerivAt φ φ' t) :
    HasDerivAt (fun s => vdot (ψ s) (φ s)) (vdot ψ' (φ t) + vdot (ψ t) φ') t := by
  have e : vdot ψ' (φ t) + vdot (ψ t) φ' = ∑ i, (star (ψ' i) * φ t i + star (ψ t i) * φ' i) := by
    simp [vdot, Finset.sum_add_distrib]
  rw [e]
  have e2 : (fun s => vdot (ψ s) (φ s)) = ∑ i, fun s => star (ψ s i) * φ s i := by
    funext s; simp [vdot]
  rw [e2]
  apply HasDerivAt.sum
  intro i _
  exact ((hasDerivAt_pi.1 h1 i).star).mul (hasDerivAt_pi.1 h2 i)

theorem mulVec_deriv (H : Matrix ι ι ℂ) {ψ : ℝ → ι → ℂ} {ψ' : ι → ℂ} {t : ℝ} (h : HasDerivAt ψ ψ' t) :
    HasDerivAt (fun s => H.mulVec (ψ s)) (H.mulVec ψ') t := by
  rw [hasDerivAt_pi]
  intro i
  have e : (fun s => H.mulVec (ψ s) i) = ∑ j, fun s => H i j * ψ s j := by
    funext s; simp [Matrix.mulVec, dotProduct]
  rw [e]
  apply HasDerivAt.sum
  intro j _
  exact (hasDerivAt_pi.1 h j).const_mul _

theorem re_deriv {f : ℝ → ℂ} {f' : ℂ} {t : ℝ} (h : HasDerivAt f f' t) : HasDerivAt (fun s => (f s).re) f'.re t := by
  have := (Complex.reCLM.hasFDerivAt (x := f t)).comp_hasDerivAt t h
  simpa [Function.comp_def] using this

theorem normSq_deriv {f : (ι → ℂ) → ι → ℂ} {ψ : ℝ → ι → ℂ} (h : Solves f ψ) (t : ℝ) :
    HasDerivAt (fun s => normSq (ψ s)) (vdot (f (ψ t)) (ψ t) + vdot (ψ t) (f (ψ t))).re t := by
  have := re_deriv (vdot_deriv (h t) (h t))
  simpa [vdot_self] using this

theorem expect_deriv (O : Matrix ι ι ℂ) {f : (ι → ℂ) → ι → ℂ} {ψ : ℝ → ι → ℂ} (h : Solves f ψ) (t : ℝ) :
    HasDerivAt (fun s => expect O (ψ s)) (vdot (f (ψ t)) (O.mulVec (ψ t)) + vdot (ψ t) (O.mulVec (f (ψ t)))) t := by
  have := vdot_deriv (h t) (mulVec_deriv O (h t))
  simpa only [expect_eq] using this

/-! ## C98 -/

/-- C98: real time propagation solves iψ' = Hψ. -/
theorem C98_schroedinger (H : Matrix ι ι ℂ) (ψ : ℝ → ι → ℂ) :
    Solves (rhsReal H) ψ ↔ ∀ t, ∃ d, HasDerivAt ψ d t ∧ ∀ i, Complex.I * d i = ∑ j, H i j * ψ t j := by
  constructor
  · intro h t
    refine ⟨_, h t, fun i => ?_⟩
    simp only [rhsReal, Pi.smul_apply, smul_eq_mul, ← mul_assoc]
    rw [mul_neg, Complex.I_mul_I, neg_neg, one_mul]
    rfl
  · intro h t
    obtain ⟨d, hd, he⟩ := h t
    have : rhsReal H (ψ t) = d := by
      funext i
      have := he i
      simp only [rhsReal, Pi.smul_apply, smul_eq_mul, Matrix.mulVec, dotProduct]
      rw [← this, ← mul_assoc, neg_mul, Complex.I_mul_I, neg_neg, one_mul]
    rw [this]
    exact hd

/-- C98: along real time propagation with a Hermitian Hamiltonian norm and energy are constant, and so is every observable commuting with it. -/
theorem C98_real_conserves (H : Matrix ι ι ℂ) (hH : H.IsHermitian) (ψ : ℝ → ι → ℂ) (h : Solves (rhsReal H) ψ) (s t : ℝ) :
    normSq (ψ s) = normSq (ψ t) ∧ ∀ O : Matrix ι ι ℂ, O * H = H * O → expect O (ψ s) = expect O (ψ t) := by
  constructor
  · apply is_const_of_deriv_eq_zero (f := fun t => normSq (ψ t))
    · intro t; exact (normSq_deriv h t).differentiableAt
    · intro t
      rw [(normSq_deriv h t).deriv, rhsReal, vdot_smul_left, vdot_smul_right, vdot_mulVec H hH]
      simp
  · intro O hO
    apply is_const_of_deriv_eq_zero (f := fun t => expect O (ψ t))
    · intro t; exact (expect_deriv O h t).differentiableAt
    · intro t
      rw [(expect_deriv O h t).deriv, rhsReal, vdot_smul_left, Matrix.mulVec_smul, vdot_smul_right, Matrix.mulVec_mulVec, hO,
        ← Matrix.mulVec_mulVec, vdot_mulVec H hH]
      simp

theorem imag_norm_deriv (H : Matrix ι ι ℂ) (hH : H.IsHermitian) (ψ : ℝ → ι → ℂ) (h : Solves (rhsImag H) ψ) (t : ℝ) :
    HasDerivAt (fun s => normSq (ψ s)) (2 * (expect H (ψ t)).re * (normSq (ψ t) - 1)) t := by
  have := normSq_deriv h t
  convert this using 1
  rw [expect_eq, rhsImag]
  simp only [vdot_add_left, vdot_add_right, vdot_neg_left, vdot_neg_right, vdot_smul_left, vdot_smul_right]
  rw [star_mean H hH, ← vdot_mulVec H hH, vdot_self]
  have hre : vdot (ψ t) (H.mulVec (ψ t)) = ((vdot (ψ t) (H.mulVec (ψ t))).re : ℂ) := by
    exact (Complex.conj_eq_iff_re.1 (star_mean H hH (ψ t))).symm
  rw [hre]
  norm_cast
  ring

/-- C98: imaginary time propagation keeps normalised states normalised. -/
theorem C98_imaginary_norm (H : Matrix ι ι ℂ) (hH : H.IsHermitian) (ψ : ℝ → ι → ℂ) (h : Solves (rhsImag H) ψ) (t0 t : ℝ) (ht : t0 ≤ t)
    (h0 : normSq (ψ t0) = 1) : normSq (ψ t) = 1 := by
  have hcont : Continuous fun s => normSq (ψ s) := continuous_iff_continuousAt.2 fun s => (imag_norm_deriv H hH ψ h s).continuousAt
  have hE : Continuous fun s => (expect H (ψ s)).re :=
    continuous_iff_continuousAt.2 fun s => (re_deriv (expect_deriv H h s)).continuousAt
  obtain ⟨C, hC⟩ := (isCompact_Icc (a := t0) (b := t)).exists_bound_of_continuousOn hE.continuousOn
  have hg := norm_le_gronwallBound_of_norm_deriv_right_le (f := fun s => normSq (ψ s) - 1)
    (f' := fun s => 2 * (expect H (ψ s)).re * (normSq (ψ s) - 1)) (δ := 0) (K := 2 * C) (ε := 0) (a := t0) (b := t)
    (hcont.sub continuous_const).continuousOn
    (fun x _ => ((imag_norm_deriv H hH ψ h x).sub_const 1).hasDerivWithinAt)
    (by simp [h0])
    (by
      intro x hx
      rw [norm_mul, norm_mul, Real.norm_ofNat, add_zero]
      apply mul_le_mul_of_nonneg_right _ (norm_nonneg _)
      have := hC x ⟨hx.1, hx.2.le⟩
      linarith)
    t ⟨ht, le_refl t⟩
  rw [gronwallBound_ε0_δ0] at hg
  have := norm_le_zero_iff.1 hg
  linarith

theorem imag_energy_deriv (H : Matrix ι ι ℂ) (hH : H.IsHermitian) (ψ : ℝ → ι → ℂ) (h : Solves (rhsImag H) ψ) (t : ℝ) (hn : normSq (ψ t) = 1) :
    HasDerivAt (fun s => (expect H (ψ s)).re) (-2 * normSq (H.mulVec (ψ t) + (-expect H (ψ t)) • ψ t)) t := by
  have := re_deriv (expect_deriv H h t)
  convert this using 1
  have hre : vdot (ψ t) (H.mulVec (ψ t)) = ((vdot (ψ t) (H.mulVec (ψ t))).re : ℂ) :=
    (Complex.conj_eq_iff_re.1 (star_mean H hH (ψ t))).symm
  have hv : ((normSq (H.mulVec (ψ t) + (-expect H (ψ t)) • ψ t) : ℝ) : ℂ)
      = vdot (H.mulVec (ψ t)) (H.mulVec (ψ t)) - vdot (ψ t) (H.mulVec (ψ t)) ^ 2 := by
    rw [← vdot_self, expect_eq]
    simp only [vdot_add_left, vdot_add_right, vdot_smul_left, vdot_smul_right, star_neg]
    rw [star_mean H hH, ← vdot_mulVec H hH _ (ψ t), vdot_self (ψ t), hn]
    push_cast
    ring
  have hd : vdot (rhsImag H (ψ t)) (H.mulVec (ψ t)) + vdot (ψ t) (H.mulVec (rhsImag H (ψ t)))
      = -2 * ((normSq (H.mulVec (ψ t) + (-expect H (ψ t)) • ψ t) : ℝ) : ℂ) := by
    rw [hv, vdot_mulVec H hH (ψ t), rhsImag]
    simp only [vdot_add_left, vdot_add_right, vdot_neg_left, vdot_neg_right, vdot_smul_left, vdot_smul_right]
    rw [star_mean H hH, ← vdot_mulVec H hH (ψ t) (ψ t)]
    ring
  rw [hd, ← Complex.ofReal_ofNat, ← Complex.ofReal_neg, ← Complex.ofReal_mul, Complex.ofReal_re]

/-- C98: imaginary time propagation of a normalised state never raises the energy; it stays constant only if the state is an eigenstate: the rate of
    change is minus twice the variance. -/
theorem C98_imaginary_energy (H : Matrix ι ι ℂ) (hH : H.IsHermitian) (ψ : ℝ → ι → ℂ) (h : Solves (rhsImag H) ψ) (t0 : ℝ) (h0 : normSq (ψ t0) = 1) :
    (∀ s t, t0 ≤ s → s ≤ t → (expect H (ψ t)).re ≤ (expect H (ψ s)).re)
    ∧ ∀ t, t0 ≤ t → HasDerivAt (fun s => (expect H (ψ s)).re) (-2 * ∑ i, Complex.normSq (∑ j, H i j * ψ t j - expect H (ψ t) * ψ t i)) t := by
  have hd : ∀ t, t0 ≤ t → HasDerivAt (fun s => (expect H (ψ s)).re) (-2 * normSq (H.mulVec (ψ t) + (-expect H (ψ t)) • ψ t)) t :=
    fun t ht => imag_energy_deriv H hH ψ h t (C98_imaginary_norm H hH ψ h t0 t ht h0)
  constructor
  · intro s t hs hst
    have hanti : AntitoneOn (fun s => (expect H (ψ s)).re) (Set.Ici t0) := by
      apply antitoneOn_of_deriv_nonpos (convex_Ici t0)
      · intro x hx; exact (hd x hx).continuousAt.continuousWithinAt
      · intro x hx
        rw [interior_Ici] at hx
        exact (hd x (le_of_lt hx)).differentiableAt.differentiableWithinAt
      · intro x hx
        rw [interior_Ici] at hx
        rw [(hd x (le_of_lt hx)).deriv]
        have := normSq_nonneg (H.mulVec (ψ x) + (-expect H (ψ x)) • ψ x)
        linarith
    exact hanti hs (hs.trans hst) hst
  · intro t ht
    convert hd t ht using 2
    unfold normSq
    apply Finset.sum_congr rfl
    intro i _
    congr 1
    simp only [Pi.add_apply, Pi.smul_apply, smul_eq_mul, neg_mul, ← sub_eq_add_neg]
    rfl

/-- C99: refuted without normalisation: for the Hamiltonian (1), whose imaginary time evolution after normalisation is constant, whatever starts at
    the state (2) and moves along the right-hand side grows. -/
theorem C99_unnormalised_refuted (ψ : ℝ → Fin 1 → ℂ) (h : HasDerivAt ψ (rhsImag 1 (ψ 0)) 0) (h0 : ψ 0 = fun _ => 2) :
    HasDerivAt (fun s => normSq (ψ s)) 24 0 := by
  have h1 := re_deriv (vdot_deriv h h)
  have h2 : HasDerivAt (fun s => normSq (ψ s)) (vdot (rhsImag 1 (ψ 0)) (ψ 0) + vdot (ψ 0) (rhsImag 1 (ψ 0))).re 0 := by
    simpa [vdot_self] using h1
  convert h2 using 1
  rw [h0]
  simp [rhsImag, vdot]
  norm_num

/-- C99: `_make_rhs` and `_make_op`: "real" and "imaginary", "sparse" and "dense" as above; other strings are not reported; refuted: the documented
    `direct` is an AttributeError. -/
theorem C99_options_refuted (H : Matrix ι ι ℂ) :
    makeRhs H .real = some (rhsReal H) ∧ makeRhs H .imaginary = some (rhsImag H) ∧ makeRhs H .other = none
    ∧ makeOp H .sparse = .ok (some H) ∧ makeOp H .dense = .ok (some H) ∧ makeOp H .direct = .error .attributeError
    ∧ makeOp H .other = .ok none := ⟨rfl, rfl, rfl, rfl, rfl, rfl, rfl⟩

/-! ## C99 -/

/-- C99: for a normalised state and a Hermitian observable `estimate` gives expectation value and variance. (Missing: other states.) -/
theorem C99_estimate_partial (O : Matrix ι ι ℂ) (hO : O.IsHermitian) (ψ : ι → ℂ) (hn : normSq ψ = 1) :
    (estimate O ψ).1 = expect O ψ ∧ (estimate O ψ).2 = ∑ i, Complex.normSq (∑ j, O i j * ψ j - expect O ψ * ψ i) ∧ 0 ≤ (estimate O ψ).2 := by
  have h1 : (estimate O ψ).1 = expect O ψ := (expect_eq O ψ).symm
  have hv : ((normSq (O.mulVec ψ + (-expect O ψ) • ψ) : ℝ) : ℂ) = vdot ψ (O.mulVec (O.mulVec ψ)) - vdot ψ (O.mulVec ψ) ^ 2 := by
    rw [← vdot_self, expect_eq]
    simp only [vdot_add_left, vdot_add_right, vdot_smul_left, vdot_smul_right, star_neg]
    rw [star_mean O hO, ← vdot_mulVec O hO ψ ψ, vdot_self ψ, hn, vdot_mulVec O hO ψ (O.mulVec ψ)]
    push_cast
    ring
  have h2 : (estimate O ψ).2 = normSq (O.mulVec ψ + (-expect O ψ) • ψ) := by
    simp only [estimate]
    rw [← hv, Complex.ofReal_re]
  refine ⟨h1, ?_, ?_⟩
  · rw [h2]
    unfold normSq
    apply Finset.sum_congr rfl
    intro i _
    congr 1
    simp only [Pi.add_apply, Pi.smul_apply, smul_eq_mul, neg_mul, ← sub_eq_add_neg]
    rfl
  · rw [h2]; exact normSq_nonneg _

/-- C99: refuted for states that are not normalised (as in the documented example): the state (2) and the observable (1) of value one give mean
    four and variance -12. -/
theorem C99_estimate_refuted : estimate (1 : Matrix (Fin 1) (Fin 1) ℂ) (fun _ => 2) = (4, -12) := by
  simp [estimate, vdot]
  norm_num

/-- C99: an integrator that reaches the requested time. -/
def Reaches {Y : Type} (solve : ℚ → Y → ℚ → Option (ℚ × Y)) (flow : ℚ → Y → Y) : Prop := ∀ t y b, solve t y b = some (b, flow (b - t) y)

/-- C99: `advance(n)` moves time by n·dt and the state with it. -/
theorem C99_advance {Y : Type} (solve : ℚ → Y → ℚ → Option (ℚ × Y)) (flow : ℚ → Y → Y) (hs : Reaches solve flow) (d : Driver Y) (n : ℤ) :
    advance solve d n = ({ d with state := flow (n * d.dt) d.state, t := d.t + n * d.dt }, none) := by
  unfold advance
  rw [hs]
  simp

/-- C99: n steps from the start: time t0 + n·dt. -/
theorem C99_from_start {Y : Type} (solve : ℚ → Y → ℚ → Option (ℚ × Y)) (flow : ℚ → Y → Y) (hs : Reaches solve flow) (y : Y) (dt t0 : ℚ) (n : ℤ) :
    (advance solve (init y dt t0) n).1.t = t0 + n * dt ∧ (advance solve (init y dt t0) n).1.state = flow (n * dt) y := by
  rw [C99_advance solve flow hs]; exact ⟨rfl, rfl⟩

/-- C99: `iter(n, step)` yields 0, …, n-1 at the times t + i·step·dt, and advances by n·step·dt in total. -/
theorem C99_iter {Y : Type} (solve : ℚ → Y → ℚ → Option (ℚ × Y)) (flow : ℚ → Y → Y) (hs : Reaches solve flow) (step : ℤ) (n i : Nat) (d : Driver Y) :
    (iter solve step n i d).2.2 = none ∧ (iter solve step n i d).2.1.t = d.t + n * (step * d.dt)
    ∧ (iter solve step n i d).1.map (fun p => (p.1, p.2.1)) = (List.range n).map fun k : Nat => (i + k, d.t + k * (step * d.dt)) := by
  induction n generalizing i d with
  | zero => simp [iter]
  | succ n ih =>
    have ha := C99_advance solve flow hs d step
    unfold iter
    rw [ha]
    simp only
    obtain ⟨h1, h2, h3⟩ := ih (i + 1) { d with state := flow (step * d.dt) d.state, t := d.t + step * d.dt }
    refine ⟨h1, ?_, ?_⟩
    · rw [h2]; push_cast; ring
    · rw [List.map_cons, h3, List.range_succ_eq_map, List.map_cons, List.map_map]
      congr 1
      · simp
      · apply List.map_congr_left
        intro k _
        simp only [Function.comp_apply, Nat.succ_eq_add_one, Prod.mk.injEq]
        constructor
        · omega
        · push_cast; ring

/-- C99: a failing integrator is a TypeError (`raise ...`) and leaves state and time. -/
theorem C99_failure {Y : Type} (solve : ℚ → Y → ℚ → Option (ℚ × Y)) (d : Driver Y) (n : ℤ) (h : solve d.t d.state (d.t + n * d.dt) = none) :
    advance solve d n = (d, some .typeError) := by
  unfold advance; rw [h]

/-- C99: `iter` with an integrator that fails: the consumer has seen the state before the failing step. -/
theorem C99_iter_failure {Y : Type} (solve : ℚ → Y → ℚ → Option (ℚ × Y)) (step : ℤ) (n i : Nat) (d : Driver Y)
    (h : solve d.t d.state (d.t + step * d.dt) = none) : iter solve step (n + 1) i d = ([(i, d.t, d.state)], d, some .typeError) := by
  unfold iter; rw [C99_failure solve d step h]

/-- C99: refuted: `step_count` is an AttributeError, after any number of steps; after a reset it is zero whatever is done. -/
theorem C99_step_count_refuted {Y : Type} (solve : ℚ → Y → ℚ → Option (ℚ × Y)) (y : Y) (dt t0 : ℚ) (ns ms : List ℤ) :
    stepCount (ns.foldl (fun d n => (advance solve d n).1) (init y dt t0)) = .error .attributeError
    ∧ stepCount (ms.foldl (fun d n => (advance solve d n).1) (reset (ns.foldl (fun d n => (advance solve d n).1) (init y dt t0)))) = .ok 0 := by
  have hk : ∀ (d : Driver Y) (ns : List ℤ), (ns.foldl (fun d n => (advance solve d n).1) d).stepAttr = d.stepAttr := by
    intro d ns
    induction ns generalizing d with
    | nil => rfl
    | cons n ns ih =>
      rw [List.foldl_cons, ih]
      unfold advance
      split <;> rfl
  constructor
  · unfold stepCount; rw [hk]; rfl
  · unfold stepCount; rw [hk]; rfl

/-- C99: refuted: a reset keeps the time and the state. -/
theorem C99_reset_refuted {Y : Type} (d : Driver Y) : (reset d).t = d.t ∧ (reset d).state = d.state ∧ (reset d).t0 = d.t0 := ⟨rfl, rfl, rfl⟩

/-- C99: refuted: `run` raises a ValueError for every number given as `save_params_every` (also the default), without a single step; and with a
    mode in its place an AttributeError. -/
theorem C99_run_refuted {Y : Type} (nIter : Nat) (d : Driver Y) (k : ℤ) :
    run nIter (.number k) d = (d, some .valueError) ∧ (0 < nIter → run nIter .writeMode d = (d, some .attributeError))
    ∧ run 0 .writeMode d = (d, none) := by
  refine ⟨rfl, fun h => ?_, rfl⟩
  unfold run
  rw [if_neg (by omega)]

/-! ## Examples -/

/-- solutions exist: a stationary state in real and in imaginary time. -/
example : Solves (rhsImag (1 : Matrix (Fin 1) (Fin 1) ℂ)) (fun _ _ => 1) ∧ normSq (fun _ : Fin 1 => (1 : ℂ)) = 1 := by
  constructor
  · intro t
    have : rhsImag (1 : Matrix (Fin 1) (Fin 1) ℂ) (fun _ => 1) = 0 := by
      funext i; simp [rhsImag, vdot]
    rw [this]
    exact hasDerivAt_const t _
  · simp [normSq]

/-- a moving solution in real time: e^{-it}. -/
example : Solves (rhsReal (1 : Matrix (Fin 1) (Fin 1) ℂ)) (fun t _ => Complex.exp (-Complex.I * t)) := by
  intro t
  rw [hasDerivAt_pi]
  intro i
  have h := ((Complex.ofRealCLM.hasDerivAt (x := t)).const_mul (-Complex.I)).cexp
  have e : rhsReal (1 : Matrix (Fin 1) (Fin 1) ℂ) (fun _ => Complex.exp (-Complex.I * t)) i
      = Complex.exp (-Complex.I * Complex.ofRealCLM t) * (-Complex.I * Complex.ofRealCLM 1) := by
    unfold rhsReal
    simp
    ring
  exact e ▸ h

/-- the hypotheses of the refutation: t ↦ 2 + 6t. -/
example : HasDerivAt (fun (t : ℝ) (_ : Fin 1) => (2 + 6 * t : ℂ)) (rhsImag 1 ((fun (t : ℝ) (_ : Fin 1) => (2 + 6 * t : ℂ)) 0)) 0 := by
  rw [hasDerivAt_pi]
  intro i
  have h := ((Complex.ofRealCLM.hasDerivAt (x := (0 : ℝ))).const_mul (6 : ℂ)).const_add 2
  have e : rhsImag (1 : Matrix (Fin 1) (Fin 1) ℂ) (fun _ => 2 + 6 * ((0 : ℝ) : ℂ)) i = 6 * Complex.ofRealCLM 1 := by
    unfold rhsImag
    simp [vdot]
    norm_num
  exact e ▸ h

/-- an integrator with the assumed property: the state counts time. -/
example : Reaches (fun t (y : ℚ) b => some (b, y + (b - t))) (fun s y => y + s) := fun _ _ _ => rfl

end Verif.ExactDynamics
