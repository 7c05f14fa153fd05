import Verif.Model.QGT
import Verif.Lemmas.FlatSum
import Mathlib.Algebra.Star.BigOperators
import Mathlib.Algebra.BigOperators.Ring.Finset
import Mathlib.Algebra.BigOperators.Field
import Mathlib.Algebra.Order.BigOperators.Group.Finset
import Mathlib.Data.Complex.BigOperators
import Mathlib.Tactic.Ring
import Mathlib.Tactic.FieldSimp
import Mathlib.Tactic.Linarith
import Mathlib.Tactic.LinearCombination

/-! C65: the representations of the quantum geometric tensor define the same map, which is symmetric and positive. -/

set_option linter.unusedSectionVars false
set_option linter.unusedVariables false

namespace Verif.QGT
open Verif.Hilbert (Err)
open Finset

theorem star_ofReal (x : ℝ) : star (x : ℂ) = (x : ℂ) := Complex.conj_ofReal x

/-! ## Means -/

theorem center_sum (ns : Nat) (h : 0 < ns) (w : Nat → ℂ) : ∑ s ∈ range ns, center ns w s = 0 := by
  have hn : (ns : ℂ) ≠ 0 := by exact_mod_cast h.ne'
  simp only [center, sum_sub_distrib, sum_const, card_range, nsmul_eq_mul]
  rw [mul_div_cancel₀ _ hn, sub_self]

theorem center_mul_const (ns : Nat) (w : Nat → ℂ) (c : ℂ) (s : Nat) : center ns (fun t => w t * c) s = center ns w s * c := by
  simp only [center, ← sum_mul]
  ring

theorem center_sum_comm (ns K : Nat) (f : Nat → Nat → ℂ) (s : Nat) :
    center ns (fun t => ∑ l ∈ range K, f l t) s = ∑ l ∈ range K, center ns (f l) s := by
  simp only [center, sum_sub_distrib]
  rw [sum_comm, ← sum_div]

theorem center_re (ns : Nat) (w : Nat → ℂ) (s : Nat) : center ns (fun t => (((w t).re : ℝ) : ℂ)) s = (((center ns w s).re : ℝ) : ℂ) := by
  unfold center
  rw [← Complex.ofReal_sum, Complex.sub_re, ← Complex.ofReal_natCast, Complex.div_ofReal_re, Complex.re_sum]
  push_cast
  rfl

theorem center_star (ns : Nat) (w : Nat → ℂ) (s : Nat) : center ns (fun t => star (w t)) s = star (center ns w s) := by
  unfold center
  rw [star_sub, star_div₀, star_sum]
  congr 2
  exact (Complex.conj_natCast ns).symm

/-- centring one factor of a mean product is enough. -/
theorem center_inner (ns : Nat) (h : 0 < ns) (a w : Nat → ℂ) :
    ∑ s ∈ range ns, star (center ns a s) * center ns w s = ∑ s ∈ range ns, star (a s) * center ns w s := by
  have h1 : ∀ s, star (center ns a s) * center ns w s
      = star (a s) * center ns w s - star ((∑ t ∈ range ns, a t) / ns) * center ns w s := by
    intro s
    rw [center, star_sub, sub_mul]
  simp only [h1, sum_sub_distrib, ← mul_sum, center_sum ns h, mul_zero, sub_zero]

/-! ## On the fly -/

/-- C65: the k-th component on the fly: the real parts of the mean products with the derivatives along real and imaginary axis. -/
theorem matVec_eq (ns np : Nat) (J : Jac) (shift : ℝ) (v : Nat → ℂ) (k : Nat) :
    matVec ns np J shift v k = shift * v k
      + ((((∑ s ∈ range ns, star (J.re s k) * center ns (jvp np J v) s).re / ns : ℝ) : ℂ)
        + Complex.I * (((∑ s ∈ range ns, star (J.im s k) * center ns (jvp np J v) s).re / ns : ℝ) : ℂ)) := by
  have key : ∀ A : Nat → ℂ, (∑ s ∈ range ns, star (center ns (fun s => jvp np J v s * (1 / (ns : ℂ))) s) * A s).re
      = (∑ s ∈ range ns, star (A s) * center ns (jvp np J v) s).re / ns := by
    intro A
    rw [Complex.re_sum, Complex.re_sum, sum_div]
    refine sum_congr rfl fun s _ => ?_
    rw [center_mul_const]
    have e : star (center ns (jvp np J v) s * (1 / (ns : ℂ))) * A s = star (star (A s) * center ns (jvp np J v) s) / ((ns : ℝ) : ℂ) := by
      rw [star_mul', star_mul', star_star, star_div₀, star_one]
      have : star (ns : ℂ) = (ns : ℂ) := Complex.conj_natCast ns
      rw [this]
      push_cast
      ring
    rw [e, Complex.div_ofReal_re]
    rfl
  unfold matVec odaggerDeltaO ohw vjp
  rw [key, key, star_sub, star_mul', star_ofReal, star_ofReal]
  have hI : star Complex.I = -Complex.I := Complex.conj_I
  rw [hI]
  ring

/-- the real inner product of two vectors of parameters. -/
noncomputable def rdot (np : Nat) (u v : Nat → ℂ) : ℝ := ∑ k ∈ range np, (star (u k) * v k).re

theorem rdot_matVec (ns np : Nat) (h : 0 < ns) (J : Jac) (shift : ℝ) (u v : Nat → ℂ) :
    rdot np u (matVec ns np J shift v) = shift * rdot np u v
      + (∑ s ∈ range ns, star (center ns (jvp np J u) s) * center ns (jvp np J v) s).re / ns := by
  rw [center_inner ns h]
  unfold rdot
  simp only [matVec_eq]
  set c := center ns (jvp np J v) with hc
  have e : ∀ k, (star (u k) * (shift * v k + ((((∑ s ∈ range ns, star (J.re s k) * c s).re / ns : ℝ) : ℂ)
        + Complex.I * (((∑ s ∈ range ns, star (J.im s k) * c s).re / ns : ℝ) : ℂ)))).re
      = shift * (star (u k) * v k).re
        + ((u k).re * (∑ s ∈ range ns, star (J.re s k) * c s).re + (u k).im * (∑ s ∈ range ns, star (J.im s k) * c s).re) / ns := by
    intro k
    have hs : star (u k) = (((u k).re : ℝ) : ℂ) - Complex.I * (((u k).im : ℝ) : ℂ) := by
      apply Complex.ext <;> simp
    rw [hs]
    simp only [Complex.mul_re, Complex.add_re, Complex.add_im, Complex.mul_im, Complex.sub_re, Complex.sub_im, Complex.ofReal_re,
      Complex.ofReal_im, Complex.I_re, Complex.I_im]
    ring
  simp only [e, sum_add_distrib, ← mul_sum, ← sum_div]
  congr 2
  have h2 : ∀ s, star (jvp np J u s) * c s = ∑ k ∈ range np, ((((u k).re : ℝ) : ℂ) * (star (J.re s k) * c s) + (((u k).im : ℝ) : ℂ) * (star (J.im s k) * c s)) := by
    intro s
    unfold jvp
    rw [star_sum, sum_mul]
    refine sum_congr rfl fun k _ => ?_
    rw [star_add, star_mul', star_mul', star_ofReal, star_ofReal]
    ring
  simp only [h2]
  rw [sum_comm, Complex.re_sum]
  rw [← sum_add_distrib]
  refine sum_congr rfl fun k _ => ?_
  rw [sum_add_distrib, ← mul_sum, ← mul_sum, Complex.add_re, Complex.re_ofReal_mul, Complex.re_ofReal_mul]

/-- C65: the tensor is symmetric for the real inner product of the parameters, whatever the ansatz. -/
theorem C65_symmetric (ns np : Nat) (h : 0 < ns) (J : Jac) (shift : ℝ) (u v : Nat → ℂ) :
    rdot np u (matVec ns np J shift v) = rdot np (matVec ns np J shift u) v := by
  have hsym : ∀ a b : Nat → ℂ, rdot np a b = rdot np b a := by
    intro a b
    unfold rdot
    refine sum_congr rfl fun k _ => ?_
    simp [Complex.mul_re]
    ring
  rw [hsym (matVec ns np J shift u) v, rdot_matVec ns np h, rdot_matVec ns np h, hsym u v]
  congr 2
  rw [Complex.re_sum, Complex.re_sum]
  refine sum_congr rfl fun s _ => ?_
  simp [Complex.mul_re]
  ring

/-- C65: and positive semidefinite plus the diagonal shift: the quadratic form is the variance of the directional derivative. -/
theorem C65_positive (ns np : Nat) (h : 0 < ns) (J : Jac) (shift : ℝ) (v : Nat → ℂ) :
    rdot np v (matVec ns np J shift v) = shift * (∑ k ∈ range np, Complex.normSq (v k))
        + (∑ s ∈ range ns, Complex.normSq (center ns (jvp np J v) s)) / ns
      ∧ shift * (∑ k ∈ range np, Complex.normSq (v k)) ≤ rdot np v (matVec ns np J shift v) := by
  have hsq : ∀ z : ℂ, (star z * z).re = Complex.normSq z := fun z => by
    simp [Complex.mul_re, Complex.normSq_apply]
  have h1 := rdot_matVec ns np h J shift v v
  have h2 : rdot np v v = ∑ k ∈ range np, Complex.normSq (v k) := sum_congr rfl fun k _ => hsq _
  rw [h2, Complex.re_sum] at h1
  simp only [hsq] at h1
  refine ⟨h1, ?_⟩
  rw [h1]
  have : 0 ≤ (∑ s ∈ range ns, Complex.normSq (center ns (jvp np J v) s)) / (ns : ℝ) :=
    div_nonneg (sum_nonneg fun s _ => Complex.normSq_nonneg _) (Nat.cast_nonneg _)
  linarith

/-- the derivatives of a function holomorphic in its parameters. -/
def IsHolo (J : Jac) : Prop := ∀ s k, J.im s k = Complex.I * J.re s k

theorem jvp_holo (np : Nat) (J : Jac) (hJ : IsHolo J) (v : Nat → ℂ) (s : Nat) : jvp np J v s = ∑ k ∈ range np, J.re s k * v k := by
  unfold jvp
  refine sum_congr rfl fun k _ => ?_
  rw [hJ s k]
  conv_rhs => rw [← Complex.re_add_im (v k)]
  ring

/-- C65: for holomorphic functions, the textbook formula S = ⟨O†ΔO⟩. -/
theorem C65_holomorphic (ns np : Nat) (h : 0 < ns) (J : Jac) (hJ : IsHolo J) (shift : ℝ) (v : Nat → ℂ) (k : Nat) :
    matVec ns np J shift v k = shift * v k
      + ∑ l ∈ range np, ((∑ s ∈ range ns, star (center ns (fun t => J.re t k) s) * center ns (fun t => J.re t l) s) / ns) * v l := by
  rw [matVec_eq]
  congr 1
  have him : (∑ s ∈ range ns, star (J.im s k) * center ns (jvp np J v) s).re
      = (∑ s ∈ range ns, star (J.re s k) * center ns (jvp np J v) s).im := by
    rw [Complex.re_sum, Complex.im_sum]
    refine sum_congr rfl fun s _ => ?_
    rw [hJ s k, star_mul']
    have hI : star Complex.I = -Complex.I := Complex.conj_I
    rw [hI]
    simp [Complex.mul_re, Complex.mul_im]
    ring
  rw [him]
  have e1 : ∀ z : ℂ, (((z.re / ns : ℝ)) : ℂ) + Complex.I * ((z.im / ns : ℝ) : ℂ) = z / ns := by
    intro z
    conv_rhs => rw [← Complex.re_add_im z]
    push_cast
    ring
  rw [e1]
  have e2 : ∀ s, center ns (jvp np J v) s = ∑ l ∈ range np, center ns (fun t => J.re t l) s * v l := by
    intro s
    have : jvp np J v = fun t => ∑ l ∈ range np, J.re t l * v l := funext fun t => jvp_holo np J hJ v t
    rw [this, center_sum_comm ns np (fun l t => J.re t l * v l)]
    exact sum_congr rfl fun l _ => center_mul_const ns _ _ s
  have e3 : ∑ s ∈ range ns, star (J.re s k) * center ns (jvp np J v) s
      = ∑ l ∈ range np, (∑ s ∈ range ns, star (J.re s k) * center ns (fun t => J.re t l) s) * v l := by
    simp only [e2, mul_sum, sum_mul]
    rw [sum_comm]
    refine sum_congr rfl fun l _ => sum_congr rfl fun s _ => by ring
  rw [e3, sum_div]
  refine sum_congr rfl fun l _ => ?_
  rw [← center_inner ns h (fun t => J.re t k)]
  ring

/-- C65: hermitian for holomorphic functions. -/
theorem C65_hermitian (ns np : Nat) (h : 0 < ns) (J : Jac) (hJ : IsHolo J) (shift : ℝ) (u v : Nat → ℂ) :
    ∑ k ∈ range np, star (u k) * matVec ns np J shift v k = star (∑ k ∈ range np, star (v k) * matVec ns np J shift u k) := by
  simp only [C65_holomorphic ns np h J hJ]
  rw [star_sum]
  simp only [mul_add, star_add, star_mul', star_star, star_sum, star_ofReal, mul_sum, sum_add_distrib]
  congr 1
  · refine sum_congr rfl fun k _ => by ring
  · rw [sum_comm]
    refine sum_congr rfl fun l _ => sum_congr rfl fun k _ => ?_
    have hn : star (ns : ℂ) = (ns : ℂ) := Complex.conj_natCast ns
    rw [star_div₀, hn, star_sum]
    simp only [star_mul', star_star]
    have e : ∑ s ∈ range ns, center ns (fun t => J.re t l) s * star (center ns (fun t => J.re t k) s)
        = ∑ s ∈ range ns, star (center ns (fun t => J.re t k) s) * center ns (fun t => J.re t l) s :=
      sum_congr rfl fun s _ => mul_comm _ _
    rw [e]
    ring

/-! ## Precomputed gradients -/

theorem sqrt_sq (ns : Nat) : ((Real.sqrt ns : ℝ) : ℂ) * ((Real.sqrt ns : ℝ) : ℂ) = (ns : ℂ) := by
  rw [← Complex.ofReal_mul, Real.mul_self_sqrt (Nat.cast_nonneg _)]
  norm_num

/-- the split gradients applied to a split vector. -/
theorem split_apply (ns np K : Nat) (J : Jac) (part : ℂ → ℂ) (v : Nat → ℝ) (s : Nat) (p : ℂ)
    (hp : ∀ z, part z = p * z) :
    ∑ l ∈ range K, center ns (fun t => ((((part (splitJac np J t l)).re : ℝ)) : ℂ)) s * (v l : ℂ)
      = (((p * center ns (fun t => ∑ l ∈ range K, splitJac np J t l * (v l : ℂ)) s).re : ℝ) : ℂ) := by
  have e1 : ∀ l, center ns (fun t => ((((part (splitJac np J t l)).re : ℝ)) : ℂ)) s * (v l : ℂ)
      = (((p * (center ns (fun t => splitJac np J t l) s * (v l : ℂ))).re : ℝ) : ℂ) := by
    intro l
    rw [center_re]
    simp only [hp]
    have : center ns (fun t => p * splitJac np J t l) s = p * center ns (fun t => splitJac np J t l) s := by
      have := center_mul_const ns (fun t => splitJac np J t l) p s
      simp only [mul_comm] at this ⊢
      exact this
    rw [this, ← mul_assoc, Complex.re_mul_ofReal]
    push_cast
    rfl
  simp only [e1]
  rw [← Complex.ofReal_sum, ← Complex.re_sum, ← mul_sum]
  congr 3
  rw [center_sum_comm ns K (fun l t => splitJac np J t l * (v l : ℂ))]
  exact sum_congr rfl fun l _ => (center_mul_const ns _ _ s).symm

/-- mode "complex" on split vectors. -/
theorem core_complex (ns np K : Nat) (h : 0 < ns) (J : Jac) (shift : ℝ) (v : Nat → ℝ) (k : Nat) :
    core (ns * 2) K (oksComplex ns np J) shift (fun l => (v l : ℂ)) k
      = (((∑ s ∈ range ns, star (splitJac np J s k) * center ns (fun t => ∑ l ∈ range K, splitJac np J t l * (v l : ℂ)) s).re / ns
        + shift * v k : ℝ) : ℂ) := by
  set w := center ns (fun t => ∑ l ∈ range K, splitJac np J t l * (v l : ℂ)) with hw
  set a := center ns (fun t => splitJac np J t k) with ha
  have hn : ((Real.sqrt ns : ℝ)) * Real.sqrt ns = ns := Real.mul_self_sqrt (Nat.cast_nonneg _)
  have hdm : ∀ s b, b < 2 → (s * 2 + b) / 2 = s ∧ (s * 2 + b) % 2 = b := fun s b hb => ⟨by omega, by omega⟩
  -- entries of the product with the vector, and of the gradients
  have e0 : ∀ s l, oksComplex ns np J (s * 2 + 0) l = center ns (fun t => (((1 * splitJac np J t l).re : ℝ) : ℂ)) s / ((Real.sqrt ns : ℝ) : ℂ) := by
    intro s l
    unfold oksComplex centered
    rw [(hdm s 0 (by norm_num)).1, (hdm s 0 (by norm_num)).2]
    simp
  have e1 : ∀ s l, oksComplex ns np J (s * 2 + 1) l = center ns (fun t => (((-Complex.I * splitJac np J t l).re : ℝ) : ℂ)) s / ((Real.sqrt ns : ℝ) : ℂ) := by
    intro s l
    unfold oksComplex centered
    rw [(hdm s 1 (by norm_num)).1, (hdm s 1 (by norm_num)).2]
    simp
  have p0 : ∀ s, ∑ l ∈ range K, oksComplex ns np J (s * 2 + 0) l * (v l : ℂ) = ((((1 * w s).re / Real.sqrt ns : ℝ)) : ℂ) := by
    intro s
    simp only [e0, div_mul_eq_mul_div, ← sum_div]
    rw [split_apply ns np K J (fun z => 1 * z) v s 1 (fun z => rfl)]
    push_cast
    rfl
  have p1 : ∀ s, ∑ l ∈ range K, oksComplex ns np J (s * 2 + 1) l * (v l : ℂ) = ((((-Complex.I * w s).re / Real.sqrt ns : ℝ)) : ℂ) := by
    intro s
    simp only [e1, div_mul_eq_mul_div, ← sum_div]
    rw [split_apply ns np K J (fun z => -Complex.I * z) v s (-Complex.I) (fun z => rfl)]
    push_cast
    rfl
  have q0 : ∀ s, oksComplex ns np J (s * 2 + 0) k = ((((1 * a s).re / Real.sqrt ns : ℝ)) : ℂ) := by
    intro s
    have h1 := center_mul_const ns (fun t => splitJac np J t k) 1 s
    simp only [mul_comm] at h1
    rw [e0, center_re]
    simp only [one_mul] at h1 ⊢
    push_cast
    rfl
  have q1 : ∀ s, oksComplex ns np J (s * 2 + 1) k = ((((-Complex.I * a s).re / Real.sqrt ns : ℝ)) : ℂ) := by
    intro s
    have h1 : center ns (fun t => -Complex.I * splitJac np J t k) s = -Complex.I * a s := by
      have := center_mul_const ns (fun t => splitJac np J t k) (-Complex.I) s
      rw [mul_comm (center ns _ s)] at this
      rw [← this]
      congr 1
      funext t
      ring
    rw [e1, center_re, h1]
    push_cast
    rfl
  unfold core
  rw [Verif.Symm.sum_range_flat]
  have hb : ∀ s, ∑ b ∈ range 2, star (∑ l ∈ range K, oksComplex ns np J (s * 2 + b) l * (v l : ℂ)) * oksComplex ns np J (s * 2 + b) k
      = ((((star (a s) * w s).re / ns : ℝ)) : ℂ) := by
    intro s
    rw [sum_range_succ, sum_range_succ, sum_range_zero, zero_add, p0, p1, q0, q1, star_ofReal, star_ofReal, ← Complex.ofReal_mul,
      ← Complex.ofReal_mul, ← Complex.ofReal_add]
    congr 1
    rw [← hn]
    have hs0 : Real.sqrt ns ≠ 0 := by
      intro h0
      rw [h0, zero_mul] at hn
      have : (0 : ℝ) < ns := by exact_mod_cast h
      linarith
    field_simp
    simp [Complex.mul_re]
  simp only [hb]
  rw [← Complex.ofReal_sum, star_ofReal, ← sum_div, ← Complex.re_sum]
  have := center_inner ns h (fun t => splitJac np J t k) (fun t => ∑ l ∈ range K, splitJac np J t l * (v l : ℂ))
  rw [ha, hw, this]
  push_cast
  rfl

theorem split_jvp (np : Nat) (J : Jac) (v : Nat → ℂ) (s : Nat) :
    ∑ l ∈ range (np + np), splitJac np J s l * (((if l < np then (v l).re else (v (l - np)).im : ℝ)) : ℂ) = jvp np J v s := by
  unfold jvp
  rw [sum_range_add, sum_add_distrib]
  congr 1
  · refine sum_congr rfl fun k hk => ?_
    simp only [splitJac, if_pos (mem_range.1 hk)]
  · refine sum_congr rfl fun k hk => ?_
    have : ¬ (np + k < np) := by omega
    simp only [splitJac, if_neg this, Nat.add_sub_cancel_left]

/-- C65: complex parameters, mode "complex": the dense representation agrees with the one on the fly for every ansatz. -/
theorem C65_complex_mode (ns np : Nat) (h : 0 < ns) (J : Jac) (shift : ℝ) (v : Nat → ℂ) (k : Nat) (hk : k < np) :
    matmul .complex true ns np J none (oks .complex ns np J) shift v k = matVec ns np J shift v k := by
  have hv : vecToReal np v = fun l => (((if l < np then (v l).re else (v (l - np)).im : ℝ)) : ℂ) := rfl
  have hj : (fun t => ∑ l ∈ range (np + np), splitJac np J t l * (((if l < np then (v l).re else (v (l - np)).im : ℝ)) : ℂ)) = jvp np J v :=
    funext fun t => split_jvp np J v t
  have e : matmul .complex true ns np J none (oks .complex ns np J) shift v k
      = core (ns * 2) (np + np) (oksComplex ns np J) shift (vecToReal np v) k
        + Complex.I * core (ns * 2) (np + np) (oksComplex ns np J) shift (vecToReal np v) (np + k) := by
    simp [matmul, reassemble, scaledCore, nRows, oks]
  rw [e, hv, core_complex ns np (np + np) h J shift, core_complex ns np (np + np) h J shift, hj, matVec_eq]
  have hk2 : ¬ (np + k < np) := by omega
  have s1 : ∀ s, splitJac np J s k = J.re s k := fun s => if_pos hk
  have s2 : ∀ s, splitJac np J s (np + k) = J.im s k := fun s => by rw [splitJac, if_neg hk2, Nat.add_sub_cancel_left]
  simp only [s1, s2, if_pos hk, if_neg hk2, Nat.add_sub_cancel_left]
  conv_rhs => enter [1]; rw [← Complex.re_add_im (v k)]
  push_cast
  ring

/-- C65: real parameters, mode "complex". -/
theorem C65_complex_mode_real (ns np : Nat) (h : 0 < ns) (J : Jac) (hJ : ∀ s k, J.im s k = 0) (shift : ℝ) (v : Nat → ℝ) (k : Nat) (hk : k < np) :
    matmul .complex false ns np J none (oks .complex ns np J) shift (fun l => (v l : ℂ)) k = matVec ns np J shift (fun l => (v l : ℂ)) k := by
  have hj : center ns (fun t => ∑ l ∈ range np, splitJac np J t l * (v l : ℂ)) = center ns (jvp np J fun l => (v l : ℂ)) := by
    congr 1
    funext t
    unfold jvp
    refine sum_congr rfl fun l hl => ?_
    rw [splitJac, if_pos (mem_range.1 hl)]
    simp [hJ]
  have e : matmul .complex false ns np J none (oks .complex ns np J) shift (fun l => (v l : ℂ)) k
      = core (ns * 2) np (oksComplex ns np J) shift (fun l => (v l : ℂ)) k := by
    simp [matmul, scaledCore, nRows, oks]
  rw [e, core_complex ns np np h J shift, hj, matVec_eq]
  have s1 : ∀ s, splitJac np J s k = J.re s k := fun s => if_pos hk
  simp only [s1, hJ, star_zero, zero_mul, sum_const_zero, Complex.zero_re, zero_div, Complex.ofReal_zero, mul_zero, add_zero]
  push_cast
  ring

/-- mode "real" on split vectors. -/
theorem core_real_mode (ns np K : Nat) (h : 0 < ns) (J : Jac) (hJ : ∀ s l, (splitJac np J s l).im = 0) (shift : ℝ) (v : Nat → ℝ) (k : Nat) :
    core ns K (oksReal ns np J) shift (fun l => (v l : ℂ)) k
      = (((∑ s ∈ range ns, star (splitJac np J s k) * center ns (fun t => ∑ l ∈ range K, splitJac np J t l * (v l : ℂ)) s).re / ns
        + shift * v k : ℝ) : ℂ) := by
  set w := center ns (fun t => ∑ l ∈ range K, splitJac np J t l * (v l : ℂ)) with hw
  set a := center ns (fun t => splitJac np J t k) with ha
  have hn : ((Real.sqrt ns : ℝ)) * Real.sqrt ns = ns := Real.mul_self_sqrt (Nat.cast_nonneg _)
  have hre : ∀ s l, splitJac np J s l = (((splitJac np J s l).re : ℝ) : ℂ) := fun s l => Complex.ext (by simp) (by simp [hJ])
  have e0 : ∀ s l, oksReal ns np J s l = center ns (fun t => (((1 * splitJac np J t l).re : ℝ) : ℂ)) s / ((Real.sqrt ns : ℝ) : ℂ) := by
    intro s l
    simp [oksReal, centered]
  have p0 : ∀ s, ∑ l ∈ range K, oksReal ns np J s l * (v l : ℂ) = ((((1 * w s).re / Real.sqrt ns : ℝ)) : ℂ) := by
    intro s
    simp only [e0, div_mul_eq_mul_div, ← sum_div]
    rw [split_apply ns np K J (fun z => 1 * z) v s 1 (fun z => rfl)]
    push_cast
    rfl
  have q0 : ∀ s, oksReal ns np J s k = ((((1 * a s).re / Real.sqrt ns : ℝ)) : ℂ) := by
    intro s
    rw [e0, center_re]
    simp only [one_mul]
    push_cast
    rfl
  have aim : ∀ s, (a s).im = 0 := by
    intro s
    have : a s = (((a s).re : ℝ) : ℂ) := by
      rw [ha, ← center_re]
      congr 1
      funext t
      exact hre t k
    rw [this, Complex.ofReal_im]
  unfold core
  have hb : ∀ s, star (∑ l ∈ range K, oksReal ns np J s l * (v l : ℂ)) * oksReal ns np J s k
      = ((((star (a s) * w s).re / ns : ℝ)) : ℂ) := by
    intro s
    rw [p0, q0, star_ofReal, ← Complex.ofReal_mul]
    congr 1
    rw [← hn]
    have hs0 : Real.sqrt ns ≠ 0 := by
      intro h0
      rw [h0, zero_mul] at hn
      have : (0 : ℝ) < ns := by exact_mod_cast h
      linarith
    field_simp
    simp [Complex.mul_re, aim]
    ring
  simp only [hb]
  rw [← Complex.ofReal_sum, star_ofReal, ← sum_div, ← Complex.re_sum]
  have := center_inner ns h (fun t => splitJac np J t k) (fun t => ∑ l ∈ range K, splitJac np J t l * (v l : ℂ))
  rw [ha, hw, this]
  push_cast
  rfl

/-- C65: mode "real" for real-valued functions of complex parameters. -/
theorem C65_real_mode (ns np : Nat) (h : 0 < ns) (J : Jac) (hr : ∀ s k, (J.re s k).im = 0) (hi : ∀ s k, (J.im s k).im = 0) (shift : ℝ)
    (v : Nat → ℂ) (k : Nat) (hk : k < np) :
    matmul .real true ns np J none (oks .real ns np J) shift v k = matVec ns np J shift v k := by
  have hs : ∀ s l, (splitJac np J s l).im = 0 := by
    intro s l
    unfold splitJac
    split
    · exact hr s l
    · exact hi s _
  have hv : vecToReal np v = fun l => (((if l < np then (v l).re else (v (l - np)).im : ℝ)) : ℂ) := rfl
  have hj : (fun t => ∑ l ∈ range (np + np), splitJac np J t l * (((if l < np then (v l).re else (v (l - np)).im : ℝ)) : ℂ)) = jvp np J v :=
    funext fun t => split_jvp np J v t
  have e : matmul .real true ns np J none (oks .real ns np J) shift v k
      = core ns (np + np) (oksReal ns np J) shift (vecToReal np v) k
        + Complex.I * core ns (np + np) (oksReal ns np J) shift (vecToReal np v) (np + k) := by
    simp [matmul, reassemble, scaledCore, nRows, oks]
  rw [e, hv, core_real_mode ns np (np + np) h J hs shift, core_real_mode ns np (np + np) h J hs shift, hj, matVec_eq]
  have hk2 : ¬ (np + k < np) := by omega
  have s1 : ∀ s, splitJac np J s k = J.re s k := fun s => if_pos hk
  have s2 : ∀ s, splitJac np J s (np + k) = J.im s k := fun s => by rw [splitJac, if_neg hk2, Nat.add_sub_cancel_left]
  simp only [s1, s2, if_pos hk, if_neg hk2, Nat.add_sub_cancel_left]
  conv_rhs => enter [1]; rw [← Complex.re_add_im (v k)]
  push_cast
  ring

theorem holo_entry (J : Jac) (hJ : IsHolo J) (s k : Nat) :
    (((J.re s k).re : ℝ) : ℂ) - Complex.I * (((J.im s k).re : ℝ) : ℂ) = J.re s k := by
  rw [hJ s k]
  apply Complex.ext <;> simp

/-- C65: mode "holomorphic" for holomorphic functions. -/
theorem C65_holomorphic_mode (ns np : Nat) (h : 0 < ns) (J : Jac) (hJ : IsHolo J) (cplx : Bool) (shift : ℝ) (v : Nat → ℂ) (k : Nat) :
    matmul .holomorphic cplx ns np J none (oks .holomorphic ns np J) shift v k = matVec ns np J shift v k := by
  have e : matmul .holomorphic cplx ns np J none (oks .holomorphic ns np J) shift v k = core ns np (oksHolo ns J) shift v k := by
    simp [matmul, scaledCore, nRows, oks]
  have hO : ∀ r l, oksHolo ns J r l = center ns (fun t => J.re t l) r / ((Real.sqrt ns : ℝ) : ℂ) := by
    intro r l
    unfold oksHolo centered
    congr 2
    funext t
    exact holo_entry J hJ t l
  have hn := sqrt_sq ns
  have hn0 : (ns : ℂ) ≠ 0 := by exact_mod_cast h.ne'
  have hs0 : ((Real.sqrt ns : ℝ) : ℂ) ≠ 0 := fun h0 => hn0 (by rw [← hn, h0, zero_mul])
  rw [e, C65_holomorphic ns np h J hJ, core, add_comm]
  congr 1
  rw [star_sum]
  have h1 : ∀ r, star (star (∑ l ∈ range np, oksHolo ns J r l * v l) * oksHolo ns J r k)
      = ∑ l ∈ range np, star (center ns (fun t => J.re t k) r) * center ns (fun t => J.re t l) r / ns * v l := by
    intro r
    rw [star_mul', star_star, sum_mul]
    refine sum_congr rfl fun l _ => ?_
    rw [hO, hO, star_div₀, star_ofReal, ← hn]
    field_simp
  simp only [h1]
  rw [sum_comm]
  refine sum_congr rfl fun l _ => ?_
  rw [← sum_mul, sum_div]

/-! ## Jacobian as a tree: parameters of mixed types -/

/-- derivatives and vectors fit the types of the parameters: nothing along the imaginary axis of a real one. -/
def Fits (cplx : Nat → Bool) (J : Jac) (v : Nat → ℂ) : Prop :=
  ∀ k, cplx k = false → (∀ s, J.im s k = 0) ∧ (v k).im = 0

theorem pyJvp_eq (np : Nat) (cplx : Nat → Bool) (O : Nat → Nat → Bool → ℂ) (O' : Nat → Nat → ℂ) (v : Nat → ℂ) (r r' : Nat)
    (hv : ∀ k, cplx k = false → (v k).im = 0)
    (h0 : ∀ k < np, O r k false = O' r' k) (h1 : ∀ k < np, O r k true = O' r' (np + k)) :
    pyJvp np cplx O v r = ∑ l ∈ range (np + np), O' r' l * vecToReal np v l := by
  unfold pyJvp
  rw [sum_range_add, sum_add_distrib]
  congr 1
  · refine sum_congr rfl fun k hk => ?_
    rw [vecToReal, if_pos (mem_range.1 hk), h0 k (mem_range.1 hk)]
  · refine sum_congr rfl fun k hk => ?_
    have : ¬ (np + k < np) := by omega
    rw [vecToReal, if_neg this, Nat.add_sub_cancel_left, ← h1 k (mem_range.1 hk)]
    by_cases c : cplx k = true
    · rw [if_pos c]
    · rw [if_neg c, hv k (by simpa using c)]; simp

theorem pyMatVec_complex (ns np : Nat) (cplx : Nat → Bool) (J : Jac) (shift : ℝ) (v : Nat → ℂ)
    (hv : ∀ k, cplx k = false → (v k).im = 0) (k : Nat) (hk : k < np) (part : Bool) :
    pyMatVec (pyRows .complex ns) np cplx (pyOks .complex ns J) shift v k part
      = core (ns * 2) (np + np) (oksComplex ns np J) shift (vecToReal np v) (if part then np + k else k) := by
  have hk2 : ∀ m, ¬ (np + m < np) := fun m => by omega
  have e0 : ∀ s < ns, ∀ m < np, ∀ p, pyOks .complex ns J s m p = oksComplex ns np J (s * 2 + 0) (if p then np + m else m) := by
    intro s hs m hm p
    have d1 : (s * 2 + 0) / 2 = s := by omega
    have d2 : (s * 2 + 0) % 2 = 0 := by omega
    simp only [pyOks, if_pos hs, oksComplex, d1, d2, if_true, centered]
    cases p <;> simp [pyDeriv, splitJac, hm]
  have e1 : ∀ s < ns, ∀ m < np, ∀ p, pyOks .complex ns J (ns + s) m p = oksComplex ns np J (s * 2 + 1) (if p then np + m else m) := by
    intro s hs m hm p
    have d1 : (s * 2 + 1) / 2 = s := by omega
    have d2 : ¬ ((s * 2 + 1) % 2 = 0) := by omega
    have d3 : ¬ (ns + s < ns) := by omega
    simp only [pyOks, if_neg d3, oksComplex, d1, if_neg d2, centered, Nat.add_sub_cancel_left]
    cases p <;> simp [pyDeriv, splitJac, hm]
  unfold pyMatVec core pyRows
  congr 1
  · congr 1
    rw [sum_range_add, Verif.Symm.sum_range_flat, ← sum_add_distrib]
    refine sum_congr rfl fun s hs => ?_
    have hs' := mem_range.1 hs
    rw [sum_range_succ, sum_range_succ, sum_range_zero, zero_add, e0 s hs' k hk, e1 s hs' k hk]
    rw [pyJvp_eq np cplx (pyOks .complex ns J) (oksComplex ns np J) v s (s * 2 + 0) hv (fun m hm => e0 s hs' m hm false) (fun m hm => e0 s hs' m hm true),
      pyJvp_eq np cplx (pyOks .complex ns J) (oksComplex ns np J) v (ns + s) (s * 2 + 1) hv (fun m hm => e1 s hs' m hm false)
        (fun m hm => e1 s hs' m hm true)]
  · cases part
    · simp [vecToReal, hk]
    · simp [vecToReal]

theorem pyMatVec_real (ns np : Nat) (cplx : Nat → Bool) (J : Jac) (shift : ℝ) (v : Nat → ℂ)
    (hv : ∀ k, cplx k = false → (v k).im = 0) (k : Nat) (hk : k < np) (part : Bool) :
    pyMatVec (pyRows .real ns) np cplx (pyOks .real ns J) shift v k part
      = core ns (np + np) (oksReal ns np J) shift (vecToReal np v) (if part then np + k else k) := by
  have e0 : ∀ s, ∀ m < np, ∀ p, pyOks .real ns J s m p = oksReal ns np J s (if p then np + m else m) := by
    intro s m hm p
    simp only [pyOks, oksReal, centered]
    cases p <;> simp [pyDeriv, splitJac, hm]
  unfold pyMatVec core pyRows
  congr 1
  · congr 1
    refine sum_congr rfl fun s hs => ?_
    rw [e0 s k hk, pyJvp_eq np cplx (pyOks .real ns J) (oksReal ns np J) v s s hv (fun m hm => e0 s m hm false) (fun m hm => e0 s m hm true)]
  · cases part
    · simp [vecToReal, hk]
    · simp [vecToReal]

theorem matVec_real_entry (ns np : Nat) (cplx : Nat → Bool) (J : Jac) (shift : ℝ) (v : Nat → ℂ) (hf : Fits cplx J v) (k : Nat)
    (hc : cplx k = false) : (matVec ns np J shift v k).im = 0 := by
  rw [matVec_eq]
  have h1 : ∑ s ∈ range ns, star (J.im s k) * center ns (jvp np J v) s = 0 :=
    sum_eq_zero fun s _ => by rw [(hf k hc).1 s]; simp
  rw [h1]
  simp [Complex.mul_im, (hf k hc).2]

theorem parts_matVec (ns np : Nat) (cplx : Nat → Bool) (J : Jac) (shift : ℝ) (v : Nat → ℂ) (hf : Fits cplx J v) (k : Nat) (a b : ℝ)
    (h : (a : ℂ) + Complex.I * (b : ℂ) = matVec ns np J shift v k) :
    (if cplx k then (a : ℂ) + Complex.I * (b : ℂ) else (a : ℂ)) = matVec ns np J shift v k := by
  by_cases c : cplx k = true
  · rw [if_pos c, h]
  · rw [if_neg c, ← h]
    have := matVec_real_entry ns np cplx J shift v hf k (by simpa using c)
    rw [← h] at this
    simp at this
    rw [this]; simp

/-- C65: the tree representation in mode "complex" agrees with the one on the fly, for any mixture of real and complex parameters. -/
theorem C65_tree_complex (ns np : Nat) (h : 0 < ns) (cplx : Nat → Bool) (J : Jac) (shift : ℝ) (v : Nat → ℂ) (hf : Fits cplx J v) (k : Nat)
    (hk : k < np) : pyMatmul .complex ns np cplx J shift v k = matVec ns np J shift v k := by
  have hc := C65_complex_mode ns np h J shift v k hk
  have e : matmul .complex true ns np J none (oks .complex ns np J) shift v k
      = core (ns * 2) (np + np) (oksComplex ns np J) shift (vecToReal np v) k
        + Complex.I * core (ns * 2) (np + np) (oksComplex ns np J) shift (vecToReal np v) (np + k) := by
    simp [matmul, reassemble, scaledCore, nRows, oks]
  rw [e] at hc
  have hv := fun k hk => (hf k hk).2
  simp only [pyMatmul, pyMatVec_complex ns np cplx J shift v hv k hk, if_true, Bool.false_eq_true, if_false]
  have hr : vecToReal np v = fun l => (((if l < np then (v l).re else (v (l - np)).im : ℝ)) : ℂ) := rfl
  rw [hr, core_complex ns np (np + np) h J shift, core_complex ns np (np + np) h J shift] at hc ⊢
  exact parts_matVec ns np cplx J shift v hf k _ _ hc

/-- C65: the tree representation in mode "real", for real-valued functions of any mixture of parameters. -/
theorem C65_tree_real (ns np : Nat) (h : 0 < ns) (cplx : Nat → Bool) (J : Jac) (hr : ∀ s k, (J.re s k).im = 0) (hi : ∀ s k, (J.im s k).im = 0)
    (shift : ℝ) (v : Nat → ℂ) (hf : Fits cplx J v) (k : Nat) (hk : k < np) :
    pyMatmul .real ns np cplx J shift v k = matVec ns np J shift v k := by
  have hs : ∀ s l, (splitJac np J s l).im = 0 := by
    intro s l
    unfold splitJac
    split
    · exact hr s l
    · exact hi s _
  have hc := C65_real_mode ns np h J hr hi shift v k hk
  have e : matmul .real true ns np J none (oks .real ns np J) shift v k
      = core ns (np + np) (oksReal ns np J) shift (vecToReal np v) k
        + Complex.I * core ns (np + np) (oksReal ns np J) shift (vecToReal np v) (np + k) := by
    simp [matmul, reassemble, scaledCore, nRows, oks]
  rw [e] at hc
  have hv := fun k hk => (hf k hk).2
  simp only [pyMatmul, pyMatVec_real ns np cplx J shift v hv k hk, if_true, Bool.false_eq_true, if_false]
  have hrr : vecToReal np v = fun l => (((if l < np then (v l).re else (v (l - np)).im : ℝ)) : ℂ) := rfl
  rw [hrr, core_real_mode ns np (np + np) h J hs shift, core_real_mode ns np (np + np) h J hs shift] at hc ⊢
  exact parts_matVec ns np cplx J shift v hf k _ _ hc

/-- C65: the tree representation in mode "holomorphic". -/
theorem C65_tree_holomorphic (ns np : Nat) (h : 0 < ns) (cplx : Nat → Bool) (J : Jac) (hJ : IsHolo J) (shift : ℝ) (v : Nat → ℂ) (k : Nat) :
    pyMatmul .holomorphic ns np cplx J shift v k = matVec ns np J shift v k := by
  rw [← C65_holomorphic_mode ns np h J hJ true shift v k]
  simp [pyMatmul, matmul, scaledCore, nRows, oks]

/-! ## Dense matrices, scales, solves -/

/-- C65: `to_dense` is the matrix of the product, with and without scale. -/
theorem C65_to_dense (rows K : Nat) (O : Nat → Nat → ℂ) (scale : Option (Nat → ℝ)) (shift : ℝ) (v : Nat → ℂ) (k : Nat) (hk : k < K) :
    ∑ l ∈ range K, toDense rows O scale shift k l * v l = scaledCore rows K O scale shift v k := by
  have hd : ∀ f : Nat → ℂ, ∑ l ∈ range K, (if k = l then f l else 0) = f k := fun f => by
    rw [sum_ite_eq (range K) k f, if_pos (mem_range.2 hk)]
  have hc : ∀ u : Nat → ℂ, star (∑ r ∈ range rows, star (∑ l ∈ range K, O r l * u l) * O r k)
      = ∑ l ∈ range K, (∑ r ∈ range rows, star (O r k) * O r l) * u l := by
    intro u
    rw [star_sum]
    simp only [star_mul', star_star, sum_mul]
    rw [sum_comm]
    refine sum_congr rfl fun l _ => sum_congr rfl fun r _ => by ring
  cases scale with
  | none =>
    simp only [toDense, scaledCore, core, add_mul, sum_add_distrib]
    rw [hc v]
    congr 1
    have : ∀ l, (shift : ℂ) * (if k = l then 1 else 0) * v l = if k = l then (shift : ℂ) * v l else 0 := fun l => by split <;> simp
    simp only [this]
    exact hd fun l => (shift : ℂ) * v l
  | some c =>
    simp only [toDense, scaledCore, core, add_mul, sum_add_distrib]
    rw [hc fun l => v l * c l, sum_mul]
    congr 1
    · refine sum_congr rfl fun l _ => ?_
      have : ∑ r ∈ range rows, star (O r k * (c k : ℂ)) * (O r l * (c l : ℂ)) = (∑ r ∈ range rows, star (O r k) * O r l) * (c k * c l) := by
        rw [sum_mul]
        refine sum_congr rfl fun r _ => ?_
        rw [star_mul', star_ofReal]
        ring
      rw [this]
      ring
    · have : ∀ l, (shift : ℂ) * (if k = l then ((c k : ℂ)) ^ 2 else 0) * v l = if k = l then (shift : ℂ) * v l * c l * c k else 0 := fun l => by
        split
        · rename_i e; subst e; ring
        · simp
      simp only [this]
      rw [hd fun l => (shift : ℂ) * v l * c l * c k]
      ring

/-- C123: on the fly, for holomorphic functions of complex parameters, `to_dense` is the matrix of the product. -/
theorem C123_to_dense_onthefly_partial (ns np : Nat) (h : 0 < ns) (J : Jac) (hJ : IsHolo J) (shift : ℝ) (v : Nat → ℂ) (k : Nat) (hk : k < np) :
    ∑ l ∈ range np, toDenseOTF true ns np J shift k l * v l = matVec ns np J shift v k := by
  simp only [toDenseOTF, if_true, C65_holomorphic ns np h J hJ, add_mul, sum_add_distrib]
  congr 1
  · have : ∀ l, (shift : ℂ) * unit l k * v l = if k = l then (shift : ℂ) * v l else 0 := fun l => by
      unfold unit
      by_cases e : k = l
      · subst e; simp
      · rw [if_neg e, if_neg (Ne.symm e)]; simp
    simp only [this]
    rw [sum_ite_eq (range np) k fun l => (shift : ℂ) * v l, if_pos (mem_range.2 hk)]
  · refine sum_congr rfl fun l hl => ?_
    congr 1
    have : ∀ m, (∑ s ∈ range ns, star (center ns (fun t => J.re t k) s) * center ns (fun t => J.re t m) s) / (ns : ℂ) * unit l m
        = if l = m then (∑ s ∈ range ns, star (center ns (fun t => J.re t k) s) * center ns (fun t => J.re t m) s) / (ns : ℂ) else 0 := fun m => by
      unfold unit
      split <;> simp
    simp only [this]
    rw [sum_ite_eq (range np) l, if_pos hl]

/-- C123: for real parameters, where the matrix is not transposed. -/
theorem C123_to_dense_onthefly_real_partial (ns np : Nat) (h : 0 < ns) (J : Jac) (hJ : ∀ s k, J.im s k = 0) (shift : ℝ) (v : Nat → ℝ) (k : Nat)
    (hk : k < np) :
    ∑ l ∈ range np, toDenseOTF false ns np J shift k l * (v l : ℂ) = matVec ns np J shift (fun l => (v l : ℂ)) k := by
  have hreal : ∀ (u : Nat → ℝ) (m : Nat), matVec ns np J shift (fun l => (u l : ℂ)) m
      = ((shift * u m + (∑ s ∈ range ns, star (J.re s m) * center ns (fun t => ∑ l ∈ range np, J.re t l * (u l : ℂ)) s).re / ns : ℝ) : ℂ) := by
    intro u m
    have hj : jvp np J (fun l => (u l : ℂ)) = fun t => ∑ l ∈ range np, J.re t l * (u l : ℂ) := by
      funext t
      unfold jvp
      refine sum_congr rfl fun l _ => by simp [hJ]
    rw [matVec_eq, hj]
    simp only [hJ, star_zero, zero_mul, sum_const_zero, Complex.zero_re, zero_div, Complex.ofReal_zero, mul_zero, add_zero]
    push_cast
    ring
  have hu : ∀ i, unit i = fun l => (((if i = l then (1 : ℝ) else 0) : ℝ) : ℂ) := by
    intro i
    funext l
    unfold unit
    split <;> simp
  have hdot : ∀ i t, ∑ l ∈ range np, J.re t l * (((if i = l then (1 : ℝ) else 0) : ℝ) : ℂ) = if i < np then J.re t i else 0 := by
    intro i t
    have : ∀ l, J.re t l * (((if i = l then (1 : ℝ) else 0) : ℝ) : ℂ) = if i = l then J.re t l else 0 := fun l => by split <;> simp
    simp only [this]
    rw [sum_ite_eq (range np) i]
    simp only [mem_range]
  simp only [toDenseOTF, Bool.false_eq_true, if_false, hu, hreal, hdot, if_pos hk]
  simp only [← Complex.ofReal_mul]
  rw [← Complex.ofReal_sum]
  congr 1
  simp only [add_mul, sum_add_distrib]
  congr 1
  · have : ∀ l, shift * (if k = l then (1 : ℝ) else 0) * v l = if k = l then shift * v l else 0 := fun l => by split <;> simp
    simp only [this]
    rw [sum_ite_eq (range np) k fun l => shift * v l, if_pos (mem_range.2 hk)]
  · have e2 : ∀ s, center ns (fun t => ∑ l ∈ range np, J.re t l * (v l : ℂ)) s = ∑ l ∈ range np, center ns (fun t => J.re t l) s * (v l : ℂ) := by
      intro s
      rw [center_sum_comm ns np (fun l t => J.re t l * (v l : ℂ))]
      exact sum_congr rfl fun l _ => center_mul_const ns _ _ s
    have e3 : ∀ l, (∑ s ∈ range ns, star (J.re s l) * center ns (fun t => J.re t k) s).re
        = (∑ s ∈ range ns, star (J.re s k) * center ns (fun t => J.re t l) s).re := by
      intro l
      rw [← center_inner ns h (fun t => J.re t l), ← center_inner ns h (fun t => J.re t k), Complex.re_sum, Complex.re_sum]
      refine sum_congr rfl fun s _ => ?_
      simp [Complex.mul_re]
      ring
    simp only [e2, e3, mul_sum]
    rw [sum_comm, Complex.re_sum, sum_div]
    refine sum_congr rfl fun l _ => ?_
    rw [Complex.re_sum, Complex.re_sum, sum_div, sum_div, sum_mul]
    refine sum_congr rfl fun s _ => ?_
    rw [← mul_assoc, Complex.re_mul_ofReal]
    ring

/-- C123: but on the fly the dense matrix does not represent the product when the ansatz is not holomorphic in complex parameters. -/
theorem C123_to_dense_onthefly_refuted :
    ¬ ∀ (ns np : Nat) (J : Jac) (shift : ℝ) (v : Nat → ℂ) (k : Nat), 0 < ns → k < np →
      ∑ l ∈ range np, toDenseOTF true ns np J shift k l * v l = matVec ns np J shift v k := by
  intro h
  have h1 := h 2 1 ⟨fun s _ => if s = 0 then 1 else -1, fun _ _ => 0⟩ 0 (fun _ => Complex.I) 0 (by norm_num) (by norm_num)
  simp only [toDenseOTF, if_true, matVec_eq, sum_range_one] at h1
  simp [jvp, center, sum_range_succ, unit] at h1

/-- C65: the norms of the columns are the roots of the diagonal of the unscaled matrix; dividing by them and multiplying again restores the
    tensor, only the shift is multiplied by the diagonal. -/
theorem C65_rescale (rows K : Nat) (O : Nat → Nat → ℂ) (hO : ∀ k < K, scaleOf rows O k ≠ 0) (shift : ℝ) (v : Nat → ℂ) (k : Nat) (hk : k < K) :
    scaledCore rows K (fun r l => O r l / ((scaleOf rows O l : ℝ) : ℂ)) (some (scaleOf rows O)) shift v k
      = core rows K O 0 v k + shift * toDense rows O none 0 k k * v k := by
  have hc : ∀ l < K, ((scaleOf rows O l : ℝ) : ℂ) ≠ 0 := fun l hl => by exact_mod_cast hO l hl
  simp only [scaledCore, core]
  have e1 : ∀ r, ∑ l ∈ range K, O r l / ((scaleOf rows O l : ℝ) : ℂ) * (v l * ((scaleOf rows O l : ℝ) : ℂ)) = ∑ l ∈ range K, O r l * v l := by
    intro r
    refine sum_congr rfl fun l hl => ?_
    have := hc l (mem_range.1 hl)
    field_simp
  simp only [e1]
  have e2 : ∑ r ∈ range rows, star (∑ l ∈ range K, O r l * v l) * (O r k / ((scaleOf rows O k : ℝ) : ℂ))
      = (∑ r ∈ range rows, star (∑ l ∈ range K, O r l * v l) * O r k) / ((scaleOf rows O k : ℝ) : ℂ) := by
    rw [sum_div]
    refine sum_congr rfl fun r _ => by ring
  rw [e2, star_div₀, star_ofReal, add_mul, div_mul_cancel₀ _ (hc k hk)]
  have e3 : toDense rows O none 0 k k = ((scaleOf rows O k : ℝ) : ℂ) * ((scaleOf rows O k : ℝ) : ℂ) := by
    have hp : 0 ≤ ∑ r ∈ range rows, (O r k * star (O r k)).re := by
      refine sum_nonneg fun r _ => ?_
      have : O r k * star (O r k) = ((Complex.normSq (O r k) : ℝ) : ℂ) := Complex.mul_conj _
      rw [this, Complex.ofReal_re]
      exact Complex.normSq_nonneg _
    rw [← Complex.ofReal_mul, scaleOf, Real.mul_self_sqrt hp]
    simp only [toDense, Complex.ofReal_zero, zero_mul, add_zero]
    push_cast
    refine sum_congr rfl fun r _ => ?_
    have : O r k * star (O r k) = ((Complex.normSq (O r k) : ℝ) : ℂ) := Complex.mul_conj _
    rw [mul_comm, this, Complex.ofReal_re]
  rw [e3]
  simp only [Complex.ofReal_zero, zero_mul, add_zero]
  ring

/-- C123: the gradients stored with `rescale_shift=True` are NaN for a parameter on which the samples do not depend; then every product is. -/
theorem C123_rescale_refuted :
    ¬ ∀ (ns np : Nat) (J : Jac) (r k : Nat), 0 < ns → r < ns → k < np → rescaled ns (oks .holomorphic ns np J) r k ≠ none := by
  intro h
  refine h 1 1 ⟨fun _ _ => 0, fun _ _ => 0⟩ 0 0 (by norm_num) (by norm_num) (by norm_num) ?_
  have : scaleOf 1 (oks .holomorphic 1 1 ⟨fun _ _ => 0, fun _ _ => 0⟩) 0 = 0 := by
    simp [scaleOf, oks, oksHolo, centered, center]
  unfold rescaled
  rw [if_pos this]

/-- C123: and conversely the stored gradients are numbers when no column vanishes. -/
theorem C123_rescale_defined_partial (rows : Nat) (O : Nat → Nat → ℂ) (r k r' : Nat) (hr : r' < rows) (hO : O r' k ≠ 0) :
    rescaled rows O r k = some (O r k / ((scaleOf rows O k : ℝ) : ℂ)) := by
  have hpos : 0 < ∑ r ∈ range rows, (O r k * star (O r k)).re := by
    have e : ∀ r, (O r k * star (O r k)).re = Complex.normSq (O r k) := fun r => by
      have : O r k * star (O r k) = ((Complex.normSq (O r k) : ℝ) : ℂ) := Complex.mul_conj _
      rw [this, Complex.ofReal_re]
    simp only [e]
    exact sum_pos' (fun i _ => Complex.normSq_nonneg _) ⟨r', mem_range.2 hr, Complex.normSq_pos.2 hO⟩
  have : scaleOf rows O k ≠ 0 := (Real.sqrt_pos.2 hpos).ne'
  unfold rescaled
  rw [if_neg this]

/-- C65: solving: if the solver solves the system it is given, the result solves the system of the operator. -/
theorem C65_solve (rows K : Nat) (O : Nat → Nat → ℂ) (scale : Option (Nat → ℝ)) (hs : ∀ c, scale = some c → ∀ k < K, c k ≠ 0) (shift : ℝ)
    (solver : ((Nat → ℂ) → Nat → ℂ) → (Nat → ℂ) → Nat → ℂ)
    (hsolver : ∀ y, ∀ k < K, core rows K O shift (solver (core rows K O shift) y) k = y k) (y : Nat → ℂ) (k : Nat) (hk : k < K) :
    scaledCore rows K O scale shift (solve rows K O scale shift solver y) k = y k := by
  cases scale with
  | none => exact hsolver y k hk
  | some c =>
    have hc : ∀ l < K, ((c l : ℝ) : ℂ) ≠ 0 := fun l hl => by exact_mod_cast hs c rfl l hl
    have h1 := hsolver (fun l => y l / c l) k hk
    simp only [scaledCore, solve]
    have hcong : ∀ u w : Nat → ℂ, (∀ l < K, u l = w l) → core rows K O shift u k = core rows K O shift w k := by
      intro u w huw
      unfold core
      rw [huw k hk]
      congr 2
      refine sum_congr rfl fun r _ => ?_
      congr 2
      exact sum_congr rfl fun l hl => by rw [huw l (mem_range.1 hl)]
    rw [hcong _ (solver (core rows K O shift) fun l => y l / c l) fun l hl => div_mul_cancel₀ _ (hc l hl), h1, div_mul_cancel₀ _ (hc k hk)]

/-! ## Shapes -/

/-- C123: the dense representation cannot be applied, in the split modes, to parameters of mixed types: a real and a complex leaf. -/
theorem C123_mixed_refuted : ¬ ∀ ls : List Leaf, ∃ n, matmulShape ls = .ok n := by
  intro h
  obtain ⟨n, hn⟩ := h [(1, false), (1, true)]
  have : matmulShape [(1, false), (1, true)] = .error .typeError := by decide +kernel
  rw [this] at hn
  simp at hn

theorem sum_filter_le (ls : List Leaf) : ((ls.filter Prod.snd).map Prod.fst).sum ≤ sizeOf ls := by
  induction ls with
  | nil => simp [sizeOf]
  | cons l ls ih =>
    obtain ⟨n, b⟩ := l
    cases b <;> simp [sizeOf] at ih ⊢ <;> omega

/-- C123: exactly if there are no complex leaves or all real leaves are empty. -/
theorem C123_mixed_partial (ls : List Leaf) :
    (∃ n, matmulShape ls = .ok n) ↔ (∀ l ∈ ls, l.2 = false) ∨ (∀ l ∈ ls, l.2 = false → l.1 = 0) := by
  have hz : ∀ ms : List Leaf, (∀ l ∈ ms, l.2 = false) → ((ms.filter Prod.snd).map Prod.fst).sum = 0 := by
    intro ms hms
    have : ms.filter Prod.snd = [] := List.filter_eq_nil_iff.2 fun l hl => by rw [hms l hl]; simp
    simp [this]
  have hs : ∀ ms : List Leaf, ((ms.filter Prod.snd).map Prod.fst).sum = sizeOf ms ↔ ∀ l ∈ ms, l.2 = false → l.1 = 0 := by
    intro ms
    induction ms with
    | nil => simp [sizeOf]
    | cons l ms ih =>
      obtain ⟨n, b⟩ := l
      have hle := sum_filter_le ms
      cases b with
      | false =>
        simp only [List.filter_cons, Bool.false_eq_true, if_false, List.mem_cons, forall_eq_or_imp, forall_const]
        constructor
        · intro h0
          simp only [sizeOf, List.map_cons, List.sum_cons] at h0 hle ih
          exact ⟨by omega, ih.1 (by omega)⟩
        · rintro ⟨h0, h1⟩
          have := ih.2 h1
          simp only [sizeOf, List.map_cons, List.sum_cons] at this ⊢
          omega
      | true =>
        simp only [List.filter_cons, if_true, List.mem_cons, forall_eq_or_imp]
        simp only [sizeOf, List.map_cons, List.sum_cons] at ih ⊢
        rw [Nat.add_left_cancel_iff, ih]
        simp
  unfold matmulShape columns splitLength
  by_cases hany : ls.any Prod.snd = true
  · simp only [hany, if_true]
    have hn : ¬ ∀ l ∈ ls, l.2 = false := by
      intro h0
      obtain ⟨l, hl, hb⟩ := List.any_eq_true.1 hany
      rw [h0 l hl] at hb
      exact Bool.false_ne_true hb
    constructor
    · rintro ⟨n, h1⟩
      right
      by_cases e : sizeOf ls + ((ls.filter Prod.snd).map Prod.fst).sum = 2 * sizeOf ls
      · exact (hs ls).1 (by omega)
      · rw [if_neg e] at h1; simp at h1
    · rintro (h0 | h0)
      · exact absurd h0 hn
      · have := (hs ls).2 h0
        exact ⟨_, if_pos (by omega)⟩
  · simp only [hany, Bool.false_eq_true, if_false]
    have h0 : ∀ l ∈ ls, l.2 = false := by
      intro l hl
      by_contra hb
      exact hany (List.any_eq_true.2 ⟨l, hl, by simpa using hb⟩)
    rw [hz ls h0]
    exact ⟨fun _ => Or.inl h0, fun _ => ⟨_, if_pos (by omega)⟩⟩

/-- C123: a warm start (`x0`, what `solver_restart` passes) is refused for complex parameters in the split modes, though they can be solved
    without. -/
theorem C123_warm_start_refuted :
    solveShape .complex [(3, true)] false false = .ok 6 ∧ solveShape .complex [(3, true)] true false = .error .valueError
      ∧ solveShape .complex [(3, true)] true true = .error .typeError := by
  decide +kernel

/-- C123: warm starts work in mode "holomorphic", and for real parameters. -/
theorem C123_warm_start_partial (mode : Mode) (ls : List Leaf) (guess scaled : Bool)
    (h : mode = .holomorphic ∨ ∀ l ∈ ls, l.2 = false) : solveShape mode ls guess scaled = .ok (sizeOf ls) := by
  unfold solveShape
  rcases h with h | h
  · simp [h]
  · have h1 : ls.any Prod.snd = false := by
      rw [List.any_eq_false]
      intro l hl
      rw [h l hl]
      simp
    have h2 : ls.filter Prod.snd = [] := List.filter_eq_nil_iff.2 fun l hl => by rw [h l hl]; simp
    simp [splitLength, columns, h1, h2]

/-- C65: the default mode: "complex" for complex output unless declared holomorphic, "real" otherwise. -/
theorem C65_mode (holomorphic : Option Bool) (complexOutput : Bool) :
    (chooseMode holomorphic complexOutput = .holomorphic ↔ holomorphic = some true)
    ∧ (holomorphic ≠ some true → (chooseMode holomorphic complexOutput = .complex ↔ complexOutput = true)) := by
  unfold chooseMode
  by_cases h : holomorphic = some true
  · simp [h]
  · cases complexOutput <;> simp [h]

/-! ## Examples -/

/-- hypotheses of the agreement theorems: a holomorphic function of one parameter at two samples, with non-zero tensor. -/
example : ∃ J : Jac, IsHolo J ∧ matVec 2 1 J 0 (fun _ => Complex.I) 0 = Complex.I := by
  let J : Jac := ⟨fun s _ => if s = 0 then 1 else -1, fun s _ => Complex.I * if s = 0 then 1 else -1⟩
  refine ⟨J, fun s k => rfl, ?_⟩
  rw [C65_holomorphic 2 1 (by norm_num) J (fun s k => rfl)]
  simp [J, center, sum_range_succ]

/-- hypotheses of `C65_solve` and `C65_rescale`: one real gradient, the scalar system. -/
example : (∀ k < 1, scaleOf 1 (fun _ _ => (2 : ℂ)) k ≠ 0)
    ∧ ∃ solver : ((Nat → ℂ) → Nat → ℂ) → (Nat → ℂ) → Nat → ℂ,
      ∀ y, ∀ k < 1, core 1 1 (fun _ _ => 1) 1 (solver (core 1 1 (fun _ _ => 1) 1) y) k = y k := by
  constructor
  · intro k _
    simp [scaleOf]
  · refine ⟨fun _ y l => y l / 2, fun y k hk => ?_⟩
    obtain rfl : k = 0 := by omega
    simp [core]

/-- hypotheses of `C65_complex_mode_real` and `C65_real_mode`: a real function of one real parameter with non-zero tensor. -/
example : ∃ J : Jac, (∀ s k, J.im s k = 0) ∧ (∀ s k, (J.re s k).im = 0) ∧ (∀ s k, (J.im s k).im = 0)
    ∧ matVec 2 1 J 0 (fun _ => 1) 0 = 1 := by
  refine ⟨⟨fun s _ => if s = 0 then 1 else -1, fun _ _ => 0⟩, fun _ _ => rfl, fun s _ => ?_, fun _ _ => rfl, ?_⟩
  · simp only; split <;> simp
  · rw [matVec_eq]
    simp [jvp, center, sum_range_succ]

/-- `C65_complex_mode` on an ansatz that is not holomorphic: the tensor annihilates imaginary vectors only. -/
example : ∃ J : Jac, matmul .complex true 2 1 J none (oks .complex 2 1 J) 0 (fun _ => 1 + Complex.I) 0 = 1 := by
  let J : Jac := ⟨fun s _ => if s = 0 then 1 else -1, fun _ _ => 0⟩
  refine ⟨J, ?_⟩
  rw [C65_complex_mode 2 1 (by norm_num) J 0 _ 0 (by norm_num), matVec_eq]
  simp [J, jvp, center, sum_range_succ]

/-- hypotheses of `C65_tree_complex`: one real and one complex parameter, a vector with components along both. -/
example : ∃ J : Jac, Fits (fun k => k == 1) J (fun k => if k = 1 then Complex.I else 1) ∧ J.im 0 1 ≠ 0 := by
  refine ⟨⟨fun s _ => s, fun s k => if k = 1 then s + 1 else 0⟩, fun k hk => ?_, by simp⟩
  have : k ≠ 1 := by simpa using hk
  simp [this]

/-! cases for the remaining theorems: two samples, two parameters -/

/-- derivatives of a holomorphic ansatz. -/
noncomputable def exHolo : Jac := ⟨fun s k => s + k, fun s k => Complex.I * (s + k)⟩

theorem exHolo_holo : IsHolo exHolo := fun _ _ => rfl

/-- derivatives of a real ansatz with real parameters. -/
noncomputable def exReal : Jac := ⟨fun s k => s + k, fun _ _ => 0⟩

theorem exReal_re (s k : Nat) : (exReal.re s k).im = 0 := by simp [exReal]

example := C65_symmetric 2 2 (by decide) exHolo 1 (fun k => k) (fun _ => Complex.I)

example := C65_positive 2 2 (by decide) exHolo 1 (fun _ => Complex.I)

example := C65_hermitian 2 2 (by decide) exHolo exHolo_holo 1 (fun k => k) (fun _ => Complex.I)

example := C65_complex_mode_real 2 2 (by decide) exReal (fun _ _ => rfl) 1 (fun k => k) 1 (by decide)

example := C65_real_mode 2 2 (by decide) exReal exReal_re (fun _ _ => rfl) 1 (fun k => k) 1 (by decide)

example := C65_holomorphic_mode 2 2 (by decide) exHolo exHolo_holo true 1 (fun k => k) 1

example := C65_tree_complex 2 2 (by decide) (fun k => k == 1) ⟨fun s _ => s, fun s k => if k = 1 then s + 1 else 0⟩ 1 (fun k => if k = 1 then Complex.I else 1)
  (fun k hk => by have : k ≠ 1 := by simpa using hk
                  simp [this]) 1 (by decide)

example := C65_tree_real 2 2 (by decide) (fun k => k == 1) ⟨fun s _ => s, fun s k => if k = 1 then s + 1 else 0⟩ (by simp)
  (fun s k => by simp only; split <;> simp) 1 (fun k => if k = 1 then Complex.I else 1)
  (fun k hk => by have : k ≠ 1 := by simpa using hk
                  simp [this]) 1 (by decide)

example := C65_tree_holomorphic 2 2 (by decide) (fun _ => true) exHolo exHolo_holo 1 (fun k => k) 1

example := C65_to_dense 2 2 (fun r k => r + k) (some fun k => k + 1) 1 (fun k => k) 1 (by decide)

example := C123_to_dense_onthefly_partial 2 2 (by decide) exHolo exHolo_holo 1 (fun k => k) 1 (by decide)

example := C123_to_dense_onthefly_real_partial 2 2 (by decide) exReal (fun _ _ => rfl) 1 (fun k => k) 1 (by decide)

example := C65_rescale 1 1 (fun _ _ => (2 : ℂ)) (fun k _ => by simp [scaleOf]) 1 (fun k => k) 0 (by decide)

example := C123_rescale_defined_partial 2 (fun r k => r + k) 0 1 1 (by decide) (by norm_num)

example := C65_solve 1 1 (fun _ _ => 1) (some fun k => k + 1) (fun c hc k _ => by cases hc; positivity) 1 (fun _ y l => y l / 2) (fun y k hk => by
  obtain rfl : k = 0 := by omega
  simp [core]) (fun k => k) 0 (by decide)

example := C123_warm_start_partial .complex [(2, false), (3, false)] true true (Or.inr (by decide))

end Verif.QGT
