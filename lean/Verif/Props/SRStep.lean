import Verif.Props.VMC

/-! C231: the update computed by stochastic reconfiguration is the unique best approximation of an imaginary-time
    step by a change of the parameters. -/

set_option linter.unusedSectionVars false
set_option linter.unusedVariables false

namespace Verif.SRStep
open Verif.Vjp Verif.QGT Finset

/-- the change of the (centred) log-amplitudes at the samples caused by the change `v` of the parameters, compared with the
    change an imaginary-time step makes (the centred local energies); mean squared distance, plus `shift` times the squared
    norm of `v`. -/
noncomputable def misfit (ns np : Nat) (J : Jac) (e : Nat → ℂ) (shift : ℝ) (v : Nat → ℂ) : ℝ :=
  (∑ s ∈ range ns, Complex.normSq ((∑ k ∈ range np, (J.re s k * ((v k).re : ℂ) + J.im s k * ((v k).im : ℂ))
      - (∑ t ∈ range ns, ∑ k ∈ range np, (J.re t k * ((v k).re : ℂ) + J.im t k * ((v k).im : ℂ))) / ns)
    - (e s - (∑ t ∈ range ns, e t) / ns))) / ns
  + shift * ∑ k ∈ range np, Complex.normSq (v k)

/-- the data of the samples, as `expect_and_grad` sees them. -/
def dataAt (ns : Nat) (J : Jac) (e : Nat → ℂ) : Shard Nat := (List.range ns).map fun s => (e s, J.re s)

theorem sum_list (n : Nat) (f : Nat → ℂ) : ((List.range n).map f).sum = ∑ s ∈ range n, f s := rfl

theorem cov_at (ns : Nat) (J : Jac) (e : Nat → ℂ) (k : Nat) :
    cov (dataAt ns J e) k = (∑ s ∈ range ns, star (J.re s k) * center ns e s) / ns := by
  unfold cov dataAt Verif.Stats.avg center
  simp only [List.map_map, List.length_map, List.length_range]
  rfl

theorem jvp_eq (np : Nat) (J : Jac) (v : Nat → ℂ) (s : Nat) :
    jvp np J v s = ∑ k ∈ range np, (J.re s k * ((v k).re : ℂ) + J.im s k * ((v k).im : ℂ)) := by
  unfold jvp
  refine sum_congr rfl fun k _ => ?_
  ring

theorem misfit_eq (ns np : Nat) (J : Jac) (e : Nat → ℂ) (shift : ℝ) (v : Nat → ℂ) :
    misfit ns np J e shift v = (∑ s ∈ range ns, Complex.normSq (center ns (jvp np J v) s - center ns e s)) / ns
      + shift * ∑ k ∈ range np, Complex.normSq (v k) := by
  unfold misfit center
  simp only [jvp_eq]

/-- the gradient, paired with a change of the parameters. -/
theorem rdot_gradient (ns np : Nat) (h : 0 < ns) (cplx : Nat → Bool) (J : Jac) (e : Nat → ℂ) (L : Nat) (shards : List (Shard Nat))
    (hL : Verif.Stats.Equal L shards) (hs : shards.flatten = dataAt ns J e)
    (hholo : ∀ s k, cplx k = true → J.im s k = Complex.I * J.re s k)
    (v : Nat → ℂ) (hv : ∀ k, cplx k = false → (v k).im = 0) :
    rdot np v (fun k => gradHermitian (cplx k) shards k)
      = (∑ s ∈ range ns, star (center ns (jvp np J v) s) * center ns e s).re / ns := by
  have hg : ∀ k, (star (v k) * gradHermitian (cplx k) shards k).re
      = (∑ s ∈ range ns, star (J.re s k * ((v k).re : ℂ) + J.im s k * ((v k).im : ℂ)) * center ns e s).re / ns := by
    intro k
    rw [C59_covariance (cplx k) L shards hL, hs, cov_at]
    have hns : (ns : ℂ) = ((ns : ℝ) : ℂ) := by push_cast; rfl
    cases hc : cplx k with
    | true =>
      rw [if_pos rfl, hns, mul_div_assoc', Complex.div_ofReal_re, mul_sum]
      congr 2
      refine sum_congr rfl fun s _ => ?_
      have : J.re s k * ((v k).re : ℂ) + J.im s k * ((v k).im : ℂ) = v k * J.re s k := by
        rw [hholo s k hc]
        conv_rhs => rw [← Complex.re_add_im (v k)]
        ring
      rw [this, star_mul']
      ring
    | false =>
      rw [if_neg (by simp), hns, Complex.div_ofReal_re]
      have h0 := hv k hc
      have hvk : star (v k) = (((v k).re : ℝ) : ℂ) := by apply Complex.ext <;> simp [h0]
      rw [hvk, ← Complex.ofReal_mul, Complex.ofReal_re, mul_div_assoc']
      congr 1
      have : ∀ s, star (J.re s k * ((v k).re : ℂ) + J.im s k * ((v k).im : ℂ)) * center ns e s
          = ((v k).re : ℂ) * (star (J.re s k) * center ns e s) := by
        intro s
        rw [h0, Complex.ofReal_zero, mul_zero, add_zero, star_mul', star_ofReal]
        ring
      simp only [this]
      rw [← mul_sum, Complex.re_ofReal_mul]
  unfold rdot
  simp only [hg]
  rw [center_inner ns h, ← sum_div, ← Complex.re_sum, sum_comm]
  congr 2
  refine sum_congr rfl fun s _ => ?_
  rw [jvp_eq, star_sum, sum_mul]

theorem normSq_sub' (a b : ℂ) : Complex.normSq (a - b) = Complex.normSq a + Complex.normSq b - 2 * (star a * b).re := by
  simp [Complex.normSq_apply, Complex.mul_re]
  ring

theorem center_sub (ns np : Nat) (J : Jac) (u v : Nat → ℂ) (s : Nat) :
    center ns (jvp np J (fun k => u k - v k)) s = center ns (jvp np J u) s - center ns (jvp np J v) s := by
  have h : ∀ s, jvp np J (fun k => u k - v k) s = jvp np J u s - jvp np J v s := by
    intro s
    rw [jvp_eq, jvp_eq, jvp_eq, ← sum_sub_distrib]
    refine sum_congr rfl fun k _ => ?_
    rw [Complex.sub_re, Complex.sub_im]
    push_cast
    ring
  unfold center
  simp only [h, sum_sub_distrib]
  ring

theorem expand (ns np : Nat) (h : 0 < ns) (J : Jac) (e : Nat → ℂ) (shift : ℝ) (v : Nat → ℂ) :
    misfit ns np J e shift v = rdot np v (matVec ns np J shift v)
      - 2 * ((∑ s ∈ range ns, star (center ns (jvp np J v) s) * center ns e s).re / ns)
      + (∑ s ∈ range ns, Complex.normSq (center ns e s)) / ns := by
  rw [misfit_eq, rdot_matVec ns np h]
  simp only [normSq_sub', sum_add_distrib, sum_sub_distrib, ← mul_sum]
  have h1 : ∀ z : ℂ, (star z * z).re = Complex.normSq z := by
    intro z
    simp [Complex.mul_re, Complex.normSq_apply]
  have h2 : rdot np v v = ∑ k ∈ range np, Complex.normSq (v k) := by
    unfold rdot
    simp only [h1]
  rw [h2, Complex.re_sum, Complex.re_sum]
  simp only [h1]
  ring

/-- **C231**: the misfit of any change of the parameters exceeds the misfit of the solution of the linear system by the squared
    distance between the two in the metric of the tensor. -/
theorem C231_excess (ns np : Nat) (h : 0 < ns) (cplx : Nat → Bool) (J : Jac) (e : Nat → ℂ) (L : Nat) (shards : List (Shard Nat))
    (hL : Verif.Stats.Equal L shards) (hs : shards.flatten = dataAt ns J e)
    (hholo : ∀ s k, cplx k = true → J.im s k = Complex.I * J.re s k) (shift : ℝ)
    (dp : Nat → ℂ) (hdp : ∀ k, cplx k = false → (dp k).im = 0)
    (hsolve : ∀ k < np, matVec ns np J shift dp k = gradHermitian (cplx k) shards k)
    (v : Nat → ℂ) (hv : ∀ k, cplx k = false → (v k).im = 0) :
    misfit ns np J e shift v = misfit ns np J e shift dp
      + ((∑ s ∈ range ns, Complex.normSq (∑ k ∈ range np, (J.re s k * ((v k - dp k).re : ℂ) + J.im s k * ((v k - dp k).im : ℂ))
          - (∑ t ∈ range ns, ∑ k ∈ range np, (J.re t k * ((v k - dp k).re : ℂ) + J.im t k * ((v k - dp k).im : ℂ))) / ns)) / ns
        + shift * ∑ k ∈ range np, Complex.normSq (v k - dp k)) := by
  have hr : ∀ u : Nat → ℂ, (∀ k, cplx k = false → (u k).im = 0) → rdot np u (matVec ns np J shift dp)
      = (∑ s ∈ range ns, star (center ns (jvp np J u) s) * center ns e s).re / ns := by
    intro u hu
    rw [← rdot_gradient ns np h cplx J e L shards hL hs hholo u hu]
    unfold rdot
    exact sum_congr rfl fun k hk => by rw [hsolve k (mem_range.1 hk)]
  have hvd := hr v hv
  have hdd := hr dp hdp
  rw [expand ns np h, expand ns np h, ← hvd, ← hdd]
  have hsq : (∑ s ∈ range ns, Complex.normSq (∑ k ∈ range np, (J.re s k * ((v k - dp k).re : ℂ) + J.im s k * ((v k - dp k).im : ℂ))
          - (∑ t ∈ range ns, ∑ k ∈ range np, (J.re t k * ((v k - dp k).re : ℂ) + J.im t k * ((v k - dp k).im : ℂ))) / ns))
      = ∑ s ∈ range ns, Complex.normSq (center ns (jvp np J v) s - center ns (jvp np J dp) s) := by
    refine sum_congr rfl fun s _ => ?_
    rw [← center_sub]
    unfold center
    simp only [jvp_eq]
  rw [hsq, rdot_matVec ns np h, rdot_matVec ns np h, rdot_matVec ns np h]
  simp only [normSq_sub', sum_add_distrib, sum_sub_distrib, ← mul_sum]
  have h1 : ∀ z : ℂ, (star z * z).re = Complex.normSq z := by
    intro z
    simp [Complex.mul_re, Complex.normSq_apply]
  have h2 : ∀ u : Nat → ℂ, rdot np u u = ∑ k ∈ range np, Complex.normSq (u k) := by
    intro u
    unfold rdot
    simp only [h1]
  rw [h2, h2, Complex.re_sum, Complex.re_sum, Complex.re_sum]
  simp only [h1]
  unfold rdot
  ring

/-- **C231**: with a positive shift the update is the only change of the parameters of least misfit; with shift zero every
    solution of the system has the least misfit. -/
theorem C231_minimiser (ns np : Nat) (h : 0 < ns) (cplx : Nat → Bool) (J : Jac) (e : Nat → ℂ) (L : Nat) (shards : List (Shard Nat))
    (hL : Verif.Stats.Equal L shards) (hs : shards.flatten = dataAt ns J e)
    (hholo : ∀ s k, cplx k = true → J.im s k = Complex.I * J.re s k) (shift : ℝ) (hshift : 0 ≤ shift)
    (dp : Nat → ℂ) (hdp : ∀ k, cplx k = false → (dp k).im = 0)
    (hsolve : ∀ k < np, matVec ns np J shift dp k = gradHermitian (cplx k) shards k)
    (v : Nat → ℂ) (hv : ∀ k, cplx k = false → (v k).im = 0) :
    misfit ns np J e shift dp ≤ misfit ns np J e shift v ∧
    (0 < shift → misfit ns np J e shift v ≤ misfit ns np J e shift dp → ∀ k < np, v k = dp k) := by
  have hx := C231_excess ns np h cplx J e L shards hL hs hholo shift dp hdp hsolve v hv
  generalize hA : (∑ s ∈ range ns, Complex.normSq (∑ k ∈ range np, (J.re s k * ((v k - dp k).re : ℂ) + J.im s k * ((v k - dp k).im : ℂ))
          - (∑ t ∈ range ns, ∑ k ∈ range np, (J.re t k * ((v k - dp k).re : ℂ) + J.im t k * ((v k - dp k).im : ℂ))) / ns)) / (ns : ℝ) = A at hx
  have hA0 : 0 ≤ A := by
    rw [← hA]
    exact div_nonneg (sum_nonneg fun _ _ => Complex.normSq_nonneg _) (Nat.cast_nonneg _)
  have hB0 : 0 ≤ ∑ k ∈ range np, Complex.normSq (v k - dp k) := sum_nonneg fun _ _ => Complex.normSq_nonneg _
  refine ⟨by have := mul_nonneg hshift hB0; linarith, fun hp hle k hk => ?_⟩
  have hB : ∑ k ∈ range np, Complex.normSq (v k - dp k) = 0 := by
    by_contra hne
    have := mul_pos hp (lt_of_le_of_ne hB0 (Ne.symm hne))
    linarith
  have := (sum_eq_zero_iff_of_nonneg fun _ _ => Complex.normSq_nonneg _).1 hB k (mem_range.2 hk)
  exact sub_eq_zero.1 (Complex.normSq_eq_zero.1 this)

/-- **C231**: conversely, a change of least misfit satisfies the linear system along every admissible direction. -/
theorem C231_converse (ns np : Nat) (h : 0 < ns) (cplx : Nat → Bool) (J : Jac) (e : Nat → ℂ) (L : Nat) (shards : List (Shard Nat))
    (hL : Verif.Stats.Equal L shards) (hs : shards.flatten = dataAt ns J e)
    (hholo : ∀ s k, cplx k = true → J.im s k = Complex.I * J.re s k) (shift : ℝ)
    (dp : Nat → ℂ) (hdp : ∀ k, cplx k = false → (dp k).im = 0)
    (hmin : ∀ v : Nat → ℂ, (∀ k, cplx k = false → (v k).im = 0) → misfit ns np J e shift dp ≤ misfit ns np J e shift v)
    (u : Nat → ℂ) (hu : ∀ k, cplx k = false → (u k).im = 0) :
    rdot np u (matVec ns np J shift dp) = rdot np u (fun k => gradHermitian (cplx k) shards k) := by
  rw [rdot_gradient ns np h cplx J e L shards hL hs hholo u hu]
  -- along `dp + t u` the misfit is a quadratic with linear coefficient `2 · difference`
  set c := rdot np u (matVec ns np J shift dp) - (∑ s ∈ range ns, star (center ns (jvp np J u) s) * center ns e s).re / ns with hc
  have hlin : ∀ (t : ℝ) s, center ns (jvp np J (fun k => dp k + (t : ℂ) * u k)) s
      = center ns (jvp np J dp) s + (t : ℂ) * center ns (jvp np J u) s := by
    intro t s
    have h1 : ∀ s, jvp np J (fun k => dp k + (t : ℂ) * u k) s = jvp np J dp s + (t : ℂ) * jvp np J u s := by
      intro s
      rw [jvp_eq, jvp_eq, jvp_eq, mul_sum, ← sum_add_distrib]
      refine sum_congr rfl fun k _ => ?_
      rw [Complex.add_re, Complex.add_im, Complex.re_ofReal_mul, Complex.im_ofReal_mul]
      push_cast
      ring
    unfold center
    simp only [h1, sum_add_distrib, ← mul_sum]
    ring
  have hquad : ∀ t : ℝ, misfit ns np J e shift (fun k => dp k + (t : ℂ) * u k)
      = misfit ns np J e shift dp + 2 * t * c + t ^ 2 * rdot np u (matVec ns np J shift u) := by
    intro t
    rw [misfit_eq, misfit_eq, hc, rdot_matVec ns np h, rdot_matVec ns np h]
    simp only [hlin]
    have e1 : ∀ a b d : ℂ, Complex.normSq (a + (t : ℂ) * b - d) = Complex.normSq (a - d) + 2 * t * ((star b * a).re - (star b * d).re)
        + t ^ 2 * (star b * b).re := by
      intro a b d
      simp [Complex.normSq_apply, Complex.mul_re]
      ring
    have e2 : ∀ a b : ℂ, Complex.normSq (a + (t : ℂ) * b) = Complex.normSq a + 2 * t * (star b * a).re + t ^ 2 * (star b * b).re := by
      intro a b
      simp [Complex.normSq_apply, Complex.mul_re]
      ring
    simp only [e1, e2, sum_add_distrib, sum_sub_distrib, ← mul_sum]
    rw [Complex.re_sum, Complex.re_sum, Complex.re_sum]
    unfold rdot
    ring
  have hall : ∀ t : ℝ, 0 ≤ 2 * t * c + t ^ 2 * rdot np u (matVec ns np J shift u) := by
    intro t
    have hadm : ∀ k, cplx k = false → (dp k + (t : ℂ) * u k).im = 0 := by
      intro k hk
      rw [Complex.add_im, Complex.im_ofReal_mul, hdp k hk, hu k hk]
      simp
    have := hmin _ hadm
    rw [hquad t] at this
    linarith
  have hc0 : c = 0 := by
    set q := rdot np u (matVec ns np J shift u) with hq
    by_contra hne
    have hcc : 0 < c ^ 2 := by positivity
    have hd : 0 < |q| + 1 := by positivity
    have h1 := hall (-c / (|q| + 1))
    have hqle : q ≤ |q| := le_abs_self q
    have : 2 * (-c / (|q| + 1)) * c + (-c / (|q| + 1)) ^ 2 * q = c ^ 2 / (|q| + 1) ^ 2 * (q - 2 * (|q| + 1)) := by
      field_simp
      ring
    rw [this] at h1
    have hp : 0 < c ^ 2 / (|q| + 1) ^ 2 := by positivity
    have hn : q - 2 * (|q| + 1) < 0 := by have := abs_nonneg q; linarith
    have := mul_neg_of_pos_of_neg hp hn
    linarith
  have := hc ▸ hc0
  linarith [hc, hc0]

/-! a case: one complex parameter, two samples, the log-amplitude of the second depends on the parameter -/

noncomputable def exJ : Jac := ⟨fun s _ => if s = 0 then 0 else 1, fun s _ => Complex.I * if s = 0 then 0 else 1⟩

theorem exSolve : ∀ k < 1, matVec 2 1 exJ (1 / 4) (fun _ => 1 / 2) k
    = gradHermitian true [dataAt 2 exJ fun s => if s = 0 then 0 else 1] k := by
  intro k hk
  rw [C59_covariance true 2 _ (by simp [Verif.Stats.Equal, dataAt]), if_pos rfl, List.flatten_cons, List.flatten_nil, List.append_nil, cov_at,
    C65_holomorphic 2 1 (by norm_num) exJ (fun _ _ => rfl)]
  obtain rfl : k = 0 := by omega
  simp [exJ, center, sum_range_succ]
  norm_num

example (v : Nat → ℂ) : misfit 2 1 exJ (fun s => if s = 0 then 0 else 1) (1 / 4) (fun _ => 1 / 2)
    ≤ misfit 2 1 exJ (fun s => if s = 0 then 0 else 1) (1 / 4) v :=
  (C231_minimiser 2 1 (by norm_num) (fun _ => true) exJ (fun s => if s = 0 then 0 else 1) 2 [dataAt 2 exJ fun s => if s = 0 then 0 else 1] (by simp [Verif.Stats.Equal, dataAt]) (by simp)
    (fun _ _ _ => rfl) (1 / 4) (by norm_num) _ (by simp) exSolve v (by simp)).1

/-- the least misfit is not zero here, and the change zero is worse. -/
example : misfit 2 1 exJ (fun s => if s = 0 then 0 else 1) (1 / 4) (fun _ => 1 / 2) = 1 / 8 ∧
    misfit 2 1 exJ (fun s => if s = 0 then 0 else 1) (1 / 4) (fun _ => 0) = 1 / 4 := by
  constructor <;> rw [misfit_eq] <;> simp [jvp_eq, center, exJ, sum_range_succ, Complex.normSq_apply] <;> norm_num

example (v : Nat → ℂ) := C231_excess 2 1 (by norm_num) (fun _ => true) exJ (fun s => if s = 0 then 0 else 1) 2 [dataAt 2 exJ fun s => if s = 0 then 0 else 1] (by simp [Verif.Stats.Equal, dataAt])
    (by simp) (fun _ _ _ => rfl) (1 / 4) _ (by simp) exSolve v (by simp)

example (u : Nat → ℂ) := C231_converse 2 1 (by norm_num) (fun _ => true) exJ (fun s => if s = 0 then 0 else 1) 2 [dataAt 2 exJ fun s => if s = 0 then 0 else 1] (by simp [Verif.Stats.Equal, dataAt]) (by simp)
    (fun _ _ _ => rfl) (1 / 4) (fun _ => 1 / 2) (by simp)
    (fun v _ => (C231_minimiser 2 1 (by norm_num) (fun _ => true) exJ (fun s => if s = 0 then 0 else 1) 2 [dataAt 2 exJ fun s => if s = 0 then 0 else 1] (by simp [Verif.Stats.Equal, dataAt]) (by simp)
      (fun _ _ _ => rfl) (1 / 4) (by norm_num) _ (by simp) exSolve v (by simp)).1) u (by simp)

end Verif.SRStep
