import Verif.Lemmas.NameSchur
import Mathlib.Analysis.SpecialFunctions.Trigonometric.Bounds
import Mathlib.LinearAlgebra.Matrix.Determinant.Basic

/-! The isometries of space: eigenvalues and eigenvectors of `c + s n× + g n nᵀ`. -/

namespace Verif.GroupNames

open Matrix Verif.Isometry

/-- the matrix of `x ↦ c x + s n × x + g (n · x) n`. -/
def gen (n : Fin 3 → ℝ) (c s g : ℝ) : Matrix (Fin 3) (Fin 3) ℝ :=
  !![c + g * n 0 * n 0, g * n 0 * n 1 - s * n 2, g * n 0 * n 2 + s * n 1;
     g * n 1 * n 0 + s * n 2, c + g * n 1 * n 1, g * n 1 * n 2 - s * n 0;
     g * n 2 * n 0 - s * n 1, g * n 2 * n 1 + s * n 0, c + g * n 2 * n 2]

theorem gen_mulVec (n : Fin 3 → ℝ) (c s g : ℝ) (x : Fin 3 → ℝ) : gen n c s g *ᵥ x = c • x + s • (n ⨯₃ x) + (g * (n ⬝ᵥ x)) • n := by
  funext i
  fin_cases i <;> simp [gen, Matrix.mulVec, dotProduct, Fin.sum_univ_three, cross_apply, Matrix.vecHead, Matrix.vecTail] <;> ring

theorem eq_gen (W : Matrix (Fin 3) (Fin 3) ℝ) (n : Fin 3 → ℝ) (c s g : ℝ) (h : ∀ x, W *ᵥ x = c • x + s • (n ⨯₃ x) + (g * (n ⬝ᵥ x)) • n) :
    W = gen n c s g := by
  refine Matrix.ext_of_mulVec_single fun j => ?_
  rw [h, gen_mulVec]

theorem rot_gen (W : Matrix (Fin 3) (Fin 3) ℝ) (n : Fin 3 → ℝ) (t : ℝ) (h : IsRot3 W n t) : W = gen n (Real.cos t) (Real.sin t) (1 - Real.cos t) :=
  eq_gen W n _ _ _ h

theorem rotoRefl_gen (W : Matrix (Fin 3) (Fin 3) ℝ) (n : Fin 3 → ℝ) (t : ℝ) (h : IsRotoRefl3 W n t) :
    W = gen n (Real.cos t) (Real.sin t) (-(1 + Real.cos t)) := by
  refine eq_gen W n _ _ _ fun x => ?_
  rw [h x, neg_mul, neg_smul, sub_eq_add_neg]

theorem refl_gen (W : Matrix (Fin 3) (Fin 3) ℝ) (n : Fin 3 → ℝ) (h : IsRefl3 W n) : W = gen n 1 0 (-2) := by
  refine eq_gen W n _ _ _ fun x => ?_
  rw [h x, neg_mul, neg_smul, sub_eq_add_neg]
  simp

theorem gen_trace (n : Fin 3 → ℝ) (hn : n ⬝ᵥ n = 1) (c s g : ℝ) : (gen n c s g).trace = 3 * c + g := by
  simp only [dotProduct, Fin.sum_univ_three] at hn
  simp [gen, Matrix.trace, Fin.sum_univ_three]
  linear_combination g * hn

theorem gen_det (n : Fin 3 → ℝ) (hn : n ⬝ᵥ n = 1) (c s g : ℝ) : (gen n c s g).det = (c ^ 2 + s ^ 2) * (c + g) := by
  simp only [dotProduct, Fin.sum_univ_three] at hn
  have : (gen n c s g).det = (c ^ 2 + s ^ 2 * (n 0 * n 0 + n 1 * n 1 + n 2 * n 2)) * (c + g * (n 0 * n 0 + n 1 * n 1 + n 2 * n 2)) := by
    rw [Matrix.det_fin_three]
    simp [gen]
    ring
  rw [this, hn]
  ring

theorem gen_orth (n : Fin 3 → ℝ) (hn : n ⬝ᵥ n = 1) (c s g : ℝ) (h1 : c ^ 2 + s ^ 2 = 1) (h2 : (c + g) ^ 2 = 1) : (gen n c s g)ᵀ * gen n c s g = 1 := by
  simp only [dotProduct, Fin.sum_univ_three] at hn
  have hg : g * g + 2 * c * g = s ^ 2 := by linear_combination h2 - h1
  ext i j
  fin_cases i <;> fin_cases j <;> simp [gen, Matrix.mul_apply, Fin.sum_univ_three] <;>
    [linear_combination h1 + (n 0 * n 0) * hg + (g ^ 2 * n 0 * n 0 + s ^ 2) * hn;
     linear_combination (n 0 * n 1) * hg + (g ^ 2 * n 0 * n 1) * hn;
     linear_combination (n 0 * n 2) * hg + (g ^ 2 * n 0 * n 2) * hn;
     linear_combination (n 0 * n 1) * hg + (g ^ 2 * n 0 * n 1) * hn;
     linear_combination h1 + (n 1 * n 1) * hg + (g ^ 2 * n 1 * n 1 + s ^ 2) * hn;
     linear_combination (n 1 * n 2) * hg + (g ^ 2 * n 1 * n 2) * hn;
     linear_combination (n 0 * n 2) * hg + (g ^ 2 * n 0 * n 2) * hn;
     linear_combination (n 1 * n 2) * hg + (g ^ 2 * n 1 * n 2) * hn;
     linear_combination h1 + (n 2 * n 2) * hg + (g ^ 2 * n 2 * n 2 + s ^ 2) * hn]

/-- the complex scalar product of `n` with a vector. -/
def cdot (n : Fin 3 → ℝ) (z : Fin 3 → ℂ) : ℂ := (n 0 : ℂ) * z 0 + (n 1 : ℂ) * z 1 + (n 2 : ℂ) * z 2

/-- an eigenvector is parallel to `n`, or orthogonal to it and then turned by `n ×`. -/
theorem gen_eigen (n : Fin 3 → ℝ) (hn : n ⬝ᵥ n = 1) (c s g : ℝ) (l : ℂ) (z : Fin 3 → ℂ)
    (h : ∀ i, ∑ k, ((gen n c s g) i k : ℂ) * z k = l * z i) :
    (l = ((c + g : ℝ) : ℂ) ∨ cdot n z = 0) ∧
    (cdot n z = 0 → (l - c) * z 0 = s * ((n 1 : ℂ) * z 2 - (n 2 : ℂ) * z 1) ∧ (l - c) * z 1 = s * ((n 2 : ℂ) * z 0 - (n 0 : ℂ) * z 2) ∧
      (l - c) * z 2 = s * ((n 0 : ℂ) * z 1 - (n 1 : ℂ) * z 0) ∧ ((∃ i, z i ≠ 0) → (l - c) ^ 2 = -(s : ℂ) ^ 2)) := by
  simp only [dotProduct, Fin.sum_univ_three] at hn
  have hnC : (n 0 : ℂ) * n 0 + (n 1 : ℂ) * n 1 + (n 2 : ℂ) * n 2 = 1 := by exact_mod_cast hn
  have e0 := h 0
  have e1 := h 1
  have e2 := h 2
  simp [gen, Fin.sum_univ_three] at e0 e1 e2
  constructor
  · have : (l - ((c + g : ℝ) : ℂ)) * cdot n z = 0 := by
      unfold cdot
      push_cast
      linear_combination -(n 0 : ℂ) * e0 - (n 1 : ℂ) * e1 - (n 2 : ℂ) * e2
        + (g : ℂ) * ((n 0 : ℂ) * z 0 + (n 1 : ℂ) * z 1 + (n 2 : ℂ) * z 2) * hnC
    rcases mul_eq_zero.1 this with h1 | h1
    · exact Or.inl (sub_eq_zero.1 h1)
    · exact Or.inr h1
  · intro hD
    unfold cdot at hD
    have E0 : (l - c) * z 0 = s * ((n 1 : ℂ) * z 2 - (n 2 : ℂ) * z 1) := by linear_combination -e0 + (g : ℂ) * (n 0 : ℂ) * hD
    have E1 : (l - c) * z 1 = s * ((n 2 : ℂ) * z 0 - (n 0 : ℂ) * z 2) := by linear_combination -e1 + (g : ℂ) * (n 1 : ℂ) * hD
    have E2 : (l - c) * z 2 = s * ((n 0 : ℂ) * z 1 - (n 1 : ℂ) * z 0) := by linear_combination -e2 + (g : ℂ) * (n 2 : ℂ) * hD
    refine ⟨E0, E1, E2, ?_⟩
    rintro ⟨i, hi⟩
    have f0 : ((l - c) ^ 2 + (s : ℂ) ^ 2) * z 0 = 0 := by
      linear_combination (l - c) * E0 + s * ((n 1 : ℂ) * E2 - (n 2 : ℂ) * E1) + (s : ℂ) ^ 2 * ((n 0 : ℂ) * hD - z 0 * hnC)
    have f1 : ((l - c) ^ 2 + (s : ℂ) ^ 2) * z 1 = 0 := by
      linear_combination (l - c) * E1 + s * ((n 2 : ℂ) * E0 - (n 0 : ℂ) * E2) + (s : ℂ) ^ 2 * ((n 1 : ℂ) * hD - z 1 * hnC)
    have f2 : ((l - c) ^ 2 + (s : ℂ) ^ 2) * z 2 = 0 := by
      linear_combination (l - c) * E2 + s * ((n 0 : ℂ) * E1 - (n 1 : ℂ) * E0) + (s : ℂ) ^ 2 * ((n 2 : ℂ) * hD - z 2 * hnC)
    have : (l - c) ^ 2 + (s : ℂ) ^ 2 = 0 := by
      fin_cases i
      · exact (mul_eq_zero.1 f0).resolve_right hi
      · exact (mul_eq_zero.1 f1).resolve_right hi
      · exact (mul_eq_zero.1 f2).resolve_right hi
    linear_combination this

theorem gen_normal (n : Fin 3 → ℝ) (c s g : ℝ) : gen n c s g * (gen n c s g)ᵀ = (gen n c s g)ᵀ * gen n c s g := by
  ext i j
  fin_cases i <;> fin_cases j <;> simp [gen, Matrix.mul_apply, Fin.sum_univ_three] <;> ring

theorem one_sub_gen (n : Fin 3 → ℝ) (c s g : ℝ) : 1 - gen n c s g = gen n (1 - c) (-s) (-g) := by
  ext i j
  fin_cases i <;> fin_cases j <;> simp [gen] <;> ring

section
variable (n : Fin 3 → ℝ) (hn : n ⬝ᵥ n = 1) (c s g : ℝ)
  (T v : Matrix (Fin 3) (Fin 3) ℂ) (hS : IsSchur (gen n c s g) T v)
include hn hS

/-- the eigenvalues. -/
theorem gen_values (j : Fin 3) : T j j = ((c + g : ℝ) : ℂ) ∨ T j j = ⟨c, s⟩ ∨ T j j = ⟨c, -s⟩ := by
  have hcol : ∀ i, ∑ k, ((gen n c s g) i k : ℂ) * v k j = T j j * v i j := fun i => schur_col _ (gen_normal n c s g) T v hS i j
  obtain ⟨h3, h4⟩ := gen_eigen n hn c s g (T j j) (fun k => v k j) hcol
  rcases h3 with h3 | h3
  · exact Or.inl h3
  · right
    obtain ⟨-, -, -, h5⟩ := h4 h3
    have hne : ∃ i, v i j ≠ 0 := by
      by_contra hc
      push Not at hc
      have := schur_unit _ T v hS j
      simp [hc] at this
    have h6 := h5 hne
    have : (T j j - c - s * Complex.I) * (T j j - c + s * Complex.I) = 0 := by
      linear_combination h6 - (s : ℂ) ^ 2 * Complex.I_sq
    rcases mul_eq_zero.1 this with h7 | h7
    · left
      have : T j j = c + s * Complex.I := by linear_combination h7
      rw [this]
      apply Complex.ext <;> simp
    · right
      have : T j j = c - s * Complex.I := by linear_combination h7
      rw [this]
      apply Complex.ext <;> simp

/-- the trace is the sum of the eigenvalues. -/
theorem gen_sum : T 0 0 + T 1 1 + T 2 2 = ((3 * c + g : ℝ) : ℂ) := by
  have e : (cm (gen n c s g)).trace = T.trace := by
    rw [show cm (gen n c s g) = v * T * vᴴ from hS.eq, Matrix.mul_assoc, Matrix.trace_mul_comm, Matrix.mul_assoc, hS.left, Matrix.mul_one]
  have e2 : (cm (gen n c s g)).trace = (((gen n c s g).trace : ℝ) : ℂ) := by
    simp [Matrix.trace, Fin.sum_univ_three]
  rw [e2, gen_trace n hn] at e
  rw [e]
  simp [Matrix.trace, Fin.sum_univ_three]

end

/-- a filter of the three columns which selects one. -/
theorem filter_one (p : Fin 3 → Bool) (j : Fin 3) (h : p j = true) (h' : ∀ k, k ≠ j → p k = false) : (List.finRange 3).filter p = [j] := by
  have e : List.finRange 3 = [0, 1, 2] := by decide
  rw [e]
  fin_cases j
  · simp [List.filter, show p 0 = true from h, h' 1 (by decide), h' 2 (by decide)]
  · simp [List.filter, show p 1 = true from h, h' 0 (by decide), h' 2 (by decide)]
  · simp [List.filter, show p 2 = true from h, h' 0 (by decide), h' 1 (by decide)]

theorem tol_pos : (0 : ℝ) < tol := by unfold tol; norm_num

section
variable (n : Fin 3 → ℝ) (hn : n ⬝ᵥ n = 1) (c s g : ℝ)
  (T v : Matrix (Fin 3) (Fin 3) ℂ) (hS : IsSchur (gen n c s g) T v)
include hn hS

/-- for an angle which is not straight, exactly one eigenvalue has positive imaginary part. -/
theorem gen_pos (hs : tol < s) (hg : g ≠ 0) : ∃ j, columnsPos T = [j] ∧ T j j = ⟨c, s⟩ := by
  have ht := tol_pos
  have hv := gen_values n hn c s g T v hS
  have hsum := gen_sum n hn c s g T v hS
  have hre := congrArg Complex.re hsum
  have him := congrArg Complex.im hsum
  simp only [Complex.add_re, Complex.add_im, Complex.ofReal_re, Complex.ofReal_im] at hre him
  have key : ∃ j, T j j = ⟨c, s⟩ ∧ ∀ k, k ≠ j → (T k k).im ≤ 0 := by
    have hs0 : 0 < s := ht.trans hs
    have l1 : ∀ z : ℂ, z = ((c + g : ℝ) : ℂ) → z.im ≤ 0 := by rintro z rfl; simp
    have l2 : ∀ z : ℂ, z = ⟨c, -s⟩ → z.im ≤ 0 := by rintro z rfl; simp [hs0.le]
    rcases hv 0 with a | a | a <;> rcases hv 1 with b | b | b <;> rcases hv 2 with d | d | d <;> rw [a, b, d] at hre him <;> simp at hre him <;>
      first
      | (exfalso; apply hg; linarith)
      | (exfalso; linarith)
      | exact ⟨0, a, fun k hk => by fin_cases k <;> first | exact absurd rfl hk | exact l1 _ b | exact l2 _ b | exact l1 _ d | exact l2 _ d⟩
      | exact ⟨1, b, fun k hk => by fin_cases k <;> first | exact absurd rfl hk | exact l1 _ a | exact l2 _ a | exact l1 _ d | exact l2 _ d⟩
      | exact ⟨2, d, fun k hk => by fin_cases k <;> first | exact absurd rfl hk | exact l1 _ a | exact l2 _ a | exact l1 _ b | exact l2 _ b⟩
  obtain ⟨j, hj, hk⟩ := key
  refine ⟨j, ?_, hj⟩
  unfold columnsPos
  apply filter_one
  · simp only [decide_eq_true_eq]
    rw [hj]
    exact hs
  · intro k hkj
    simp only [decide_eq_false_iff_not, not_lt]
    exact (hk k hkj).trans ht.le

/-- the axis found in this column is a positive multiple of `n`. -/
theorem gen_axis (hs : tol < s) (j : Fin 3) (hj : T j j = ⟨c, s⟩) : ∃ r : ℝ, 0 < r ∧ crossCol v j = r • n := by
  have ht := tol_pos
  have hs0 : s ≠ 0 := (ht.trans hs).ne'
  have hcol : ∀ i, ∑ k, ((gen n c s g) i k : ℂ) * v k j = T j j * v i j := fun i => schur_col _ (gen_normal n c s g) T v hS i j
  obtain ⟨h3, h4⟩ := gen_eigen n hn c s g (T j j) (fun k => v k j) hcol
  have hD : cdot n (fun k => v k j) = 0 := by
    rcases h3 with h3 | h3
    · exfalso
      rw [hj] at h3
      have := congrArg Complex.im h3
      simp at this
      exact hs0 this
    · exact h3
  obtain ⟨E0, E1, E2, -⟩ := h4 hD
  have hl : T j j - c = s * Complex.I := by
    rw [hj]
    apply Complex.ext <;> simp
  have hsC : (s : ℂ) ≠ 0 := by exact_mod_cast hs0
  rw [hl, mul_assoc] at E0 E1 E2
  have E0 := mul_left_cancel₀ hsC E0
  have E1 := mul_left_cancel₀ hsC E1
  have E2 := mul_left_cancel₀ hsC E2
  have r0 := congrArg Complex.re E0
  have r1 := congrArg Complex.re E1
  have r2 := congrArg Complex.re E2
  have i0 := congrArg Complex.im E0
  have i1 := congrArg Complex.im E1
  have i2 := congrArg Complex.im E2
  have d0 := congrArg Complex.re hD
  unfold cdot at d0
  simp at r0 r1 r2 i0 i1 i2 d0
  have hu := schur_unit _ T v hS j
  simp only [Fin.sum_univ_three, Complex.normSq_apply] at hu
  simp only [dotProduct, Fin.sum_univ_three] at hn
  refine ⟨(v 0 j).re ^ 2 + (v 1 j).re ^ 2 + (v 2 j).re ^ 2, ?_, ?_⟩
  · by_contra hc
    have a0 : (v 0 j).re = 0 := by
      have : (v 0 j).re ^ 2 ≤ 0 := by linarith [sq_nonneg (v 1 j).re, sq_nonneg (v 2 j).re, sq_nonneg (v 0 j).re]
      exact pow_eq_zero_iff (two_ne_zero) |>.1 (le_antisymm this (sq_nonneg _))
    have a1 : (v 1 j).re = 0 := by
      have : (v 1 j).re ^ 2 ≤ 0 := by linarith [sq_nonneg (v 1 j).re, sq_nonneg (v 2 j).re, sq_nonneg (v 0 j).re]
      exact pow_eq_zero_iff (two_ne_zero) |>.1 (le_antisymm this (sq_nonneg _))
    have a2 : (v 2 j).re = 0 := by
      have : (v 2 j).re ^ 2 ≤ 0 := by linarith [sq_nonneg (v 1 j).re, sq_nonneg (v 2 j).re, sq_nonneg (v 0 j).re]
      exact pow_eq_zero_iff (two_ne_zero) |>.1 (le_antisymm this (sq_nonneg _))
    simp [a0, a1, a2] at r0 r1 r2
    simp [a0, a1, a2, r0, r1, r2] at hu
  · funext i
    fin_cases i <;> simp [crossCol, cross_apply]
    · have : (v 1 j).im = -(n 2 * (v 0 j).re - n 0 * (v 2 j).re) := by linarith
      have h2' : (v 2 j).im = -(n 0 * (v 1 j).re - n 1 * (v 0 j).re) := by linarith
      rw [this, h2']
      linear_combination -(v 0 j).re * d0
    · have : (v 0 j).im = -(n 1 * (v 2 j).re - n 2 * (v 1 j).re) := by linarith
      have h2' : (v 2 j).im = -(n 0 * (v 1 j).re - n 1 * (v 0 j).re) := by linarith
      rw [this, h2']
      linear_combination -(v 1 j).re * d0
    · have : (v 0 j).im = -(n 1 * (v 2 j).re - n 2 * (v 1 j).re) := by linarith
      have h2' : (v 1 j).im = -(n 2 * (v 0 j).re - n 0 * (v 2 j).re) := by linarith
      rw [this, h2']
      linear_combination -(v 2 j).re * d0

/-- for half turns and reflections, exactly one eigenvalue belongs to `n`. -/
theorem gen_at (hs : s = 0) (hg : tol < |g|) : ∃ j, columnsAt T (c + g) = [j] ∧ T j j = ((c + g : ℝ) : ℂ) := by
  have ht := tol_pos
  have hg0 : g ≠ 0 := by rintro rfl; simp at hg; linarith
  have hv := gen_values n hn c s g T v hS
  have hsum := gen_sum n hn c s g T v hS
  have hv' : ∀ j, T j j = ((c + g : ℝ) : ℂ) ∨ T j j = ((c : ℝ) : ℂ) := by
    intro j
    rcases hv j with h | h | h
    · exact Or.inl h
    · right; rw [h, hs]; rfl
    · right; rw [h, hs, neg_zero]; rfl
  have hre := congrArg Complex.re hsum
  simp only [Complex.add_re, Complex.ofReal_re] at hre
  have key : ∃ j, T j j = ((c + g : ℝ) : ℂ) ∧ ∀ k, k ≠ j → T k k = ((c : ℝ) : ℂ) := by
    rcases hv' 0 with a | a <;> rcases hv' 1 with b | b <;> rcases hv' 2 with d | d <;> rw [a, b, d] at hre <;>
      simp only [Complex.ofReal_re] at hre <;>
      first
      | (exfalso; apply hg0; linarith)
      | exact ⟨0, a, fun k hk => by fin_cases k <;> first | exact absurd rfl hk | exact b | exact d⟩
      | exact ⟨1, b, fun k hk => by fin_cases k <;> first | exact absurd rfl hk | exact a | exact d⟩
      | exact ⟨2, d, fun k hk => by fin_cases k <;> first | exact absurd rfl hk | exact a | exact b⟩
  obtain ⟨j, hj, hk⟩ := key
  refine ⟨j, ?_, hj⟩
  unfold columnsAt
  apply filter_one
  · simp only [decide_eq_true_eq]
    rw [hj, sub_self, norm_zero]
    exact ht.le
  · intro k hkj
    simp only [decide_eq_false_iff_not, not_le]
    rw [hk k hkj, ← Complex.ofReal_sub, Complex.norm_real, Real.norm_eq_abs]
    have : c - (c + g) = -g := by ring
    rw [this, abs_neg]
    exact hg

/-- if this column is real, it is `n` or `-n`. -/
theorem gen_real (hs : s = 0) (hg : g ≠ 0) (j : Fin 3) (hj : T j j = ((c + g : ℝ) : ℂ)) (hr : ∀ i, (v i j).im = 0) :
    reCol v j = n ∨ reCol v j = -n := by
  have hcol : ∀ i, ∑ k, ((gen n c s g) i k : ℂ) * v k j = T j j * v i j := fun i => schur_col _ (gen_normal n c s g) T v hS i j
  have hu := schur_unit _ T v hS j
  simp only [Fin.sum_univ_three, Complex.normSq_apply, hr] at hu
  have e0 := congrArg Complex.re (hcol 0)
  have e1 := congrArg Complex.re (hcol 1)
  have e2 := congrArg Complex.re (hcol 2)
  rw [hj] at e0 e1 e2
  subst hs
  simp [gen, Fin.sum_univ_three, hr] at e0 e1 e2
  set a := (v 0 j).re with ha
  set b := (v 1 j).re with hb
  set d := (v 2 j).re with hd
  set D := n 0 * a + n 1 * b + n 2 * d with hD
  have f0 : a = D * n 0 := mul_left_cancel₀ hg (by linear_combination -e0)
  have f1 : b = D * n 1 := mul_left_cancel₀ hg (by linear_combination -e1)
  have f2 : d = D * n 2 := mul_left_cancel₀ hg (by linear_combination -e2)
  simp only [dotProduct, Fin.sum_univ_three] at hn
  have hDD : D * D = 1 := by
    rw [f0, f1, f2] at hu
    linear_combination hu - D * D * hn
  rcases mul_self_eq_one_iff.1 hDD with h | h
  · left
    funext i
    rw [h] at f0 f1 f2
    fin_cases i
    · exact f0.trans (one_mul _)
    · exact f1.trans (one_mul _)
    · exact f2.trans (one_mul _)
  · right
    funext i
    rw [h] at f0 f1 f2
    fin_cases i
    · exact f0.trans (by simp)
    · exact f1.trans (by simp)
    · exact f2.trans (by simp)

end

end Verif.GroupNames
