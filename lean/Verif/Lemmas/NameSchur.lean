import Verif.Model.GroupNames
import Verif.Spec.Isometry
import Mathlib.Analysis.Complex.Basic
import Mathlib.LinearAlgebra.Matrix.DotProduct
import Mathlib.LinearAlgebra.Matrix.NonsingularInverse
import Mathlib.Tactic.Linarith
import Mathlib.Tactic.Ring
import Mathlib.Tactic.LinearCombination
import Mathlib.Tactic.FinCases
import Mathlib.Tactic.FieldSimp

/-! Schur decompositions of real normal matrices, and the decomposition of an isometry into a linear part about a point and a translation. -/

namespace Verif.GroupNames

open Matrix Verif.Isometry

variable {d : Nat}

/-- the complex matrix of a real one. -/
abbrev cm (M : Matrix (Fin d) (Fin d) ℝ) : Matrix (Fin d) (Fin d) ℂ := M.map (fun x : ℝ => (x : ℂ))

theorem cm_mul (A B : Matrix (Fin d) (Fin d) ℝ) : cm (A * B) = cm A * cm B := by
  ext i j
  simp [Matrix.mul_apply]

theorem cm_transpose (A : Matrix (Fin d) (Fin d) ℝ) : cm Aᵀ = (cm A)ᴴ := by
  ext i j
  simp

/-- the triangular factor of a normal matrix is diagonal. -/
theorem schur_diag (M : Matrix (Fin d) (Fin d) ℝ) (hM : M * Mᵀ = Mᵀ * M) (T v : Matrix (Fin d) (Fin d) ℂ) (h : IsSchur M T v) :
    ∀ i j, i ≠ j → T i j = 0 := by
  have hT : T = vᴴ * cm M * v := by
    rw [show cm M = v * T * vᴴ from h.eq]
    calc T = (vᴴ * v) * T * (vᴴ * v) := by rw [h.left]; simp
      _ = _ := by simp only [Matrix.mul_assoc]
  have hTH : Tᴴ = vᴴ * (cm M)ᴴ * v := by
    rw [hT]
    simp only [Matrix.conjTranspose_mul, Matrix.conjTranspose_conjTranspose, Matrix.mul_assoc]
  have hn : T * Tᴴ = Tᴴ * T := by
    have e1 : T * Tᴴ = vᴴ * (cm M * (cm M)ᴴ) * v := by
      rw [hTH, hT]
      calc vᴴ * cm M * v * (vᴴ * (cm M)ᴴ * v) = vᴴ * cm M * (v * vᴴ) * (cm M)ᴴ * v := by simp only [Matrix.mul_assoc]
        _ = _ := by rw [h.right]; simp [Matrix.mul_assoc]
    have e2 : Tᴴ * T = vᴴ * ((cm M)ᴴ * cm M) * v := by
      rw [hTH, hT]
      calc vᴴ * (cm M)ᴴ * v * (vᴴ * cm M * v) = vᴴ * (cm M)ᴴ * (v * vᴴ) * cm M * v := by simp only [Matrix.mul_assoc]
        _ = _ := by rw [h.right]; simp [Matrix.mul_assoc]
    rw [e1, e2, ← cm_transpose, ← cm_mul, ← cm_mul, hM]
  have rows : ∀ (n : Nat) (i : Fin d), i.val = n → ∀ j, i < j → T i j = 0 := by
    intro n
    induction n using Nat.strong_induction_on with
    | _ n ih =>
      intro i hi j hij
      have e := congrFun (congrFun hn i) i
      rw [Matrix.mul_apply, Matrix.mul_apply] at e
      have hr : ∑ k, Tᴴ i k * T k i = star (T i i) * T i i := by
        rw [Finset.sum_eq_single i]
        · rfl
        · intro k _ hk
          rcases lt_or_gt_of_ne hk with h1 | h1
          · rw [ih k.val (by omega) k rfl i h1, mul_zero]
          · rw [h.upper k i h1, mul_zero]
        · simp
      rw [hr] at e
      have hre : ∀ k, T i k * Tᴴ k i = ((Complex.normSq (T i k) : ℝ) : ℂ) := fun k => Complex.mul_conj (T i k)
      have e3 : ∑ k, Complex.normSq (T i k) = Complex.normSq (T i i) := by
        have : ((∑ k, Complex.normSq (T i k) : ℝ) : ℂ) = ((Complex.normSq (T i i) : ℝ) : ℂ) := by
          push_cast
          rw [← Complex.mul_conj (T i i), mul_comm]
          refine Eq.trans ?_ e
          exact Finset.sum_congr rfl fun k _ => (hre k).symm
        exact_mod_cast this
      have e4 : ∑ k ∈ Finset.univ.erase i, Complex.normSq (T i k) = 0 := by
        have := Finset.add_sum_erase Finset.univ (fun k => Complex.normSq (T i k)) (Finset.mem_univ i)
        linarith
      rw [Finset.sum_eq_zero_iff_of_nonneg fun k _ => Complex.normSq_nonneg _] at e4
      exact Complex.normSq_eq_zero.1 (e4 j (Finset.mem_erase.2 ⟨hij.ne', Finset.mem_univ _⟩))
  intro i j hij
  rcases lt_or_gt_of_ne hij with h1 | h1
  · exact rows _ i rfl j h1
  · exact h.upper i j h1

/-- columns of the unitary factor are eigenvectors. -/
theorem schur_col (M : Matrix (Fin d) (Fin d) ℝ) (hM : M * Mᵀ = Mᵀ * M) (T v : Matrix (Fin d) (Fin d) ℂ) (h : IsSchur M T v) (i j : Fin d) :
    ∑ k, (M i k : ℂ) * v k j = T j j * v i j := by
  have hd := schur_diag M hM T v h
  have e : cm M * v = v * T := by
    change cm M * v = _
    rw [show cm M = v * T * vᴴ from h.eq, Matrix.mul_assoc, h.left, Matrix.mul_one]
  have := congrFun (congrFun e i) j
  rw [Matrix.mul_apply, Matrix.mul_apply] at this
  simp only [Matrix.map_apply] at this
  rw [this, Finset.sum_eq_single j]
  · ring
  · intro k _ hk
    rw [hd k j hk, mul_zero]
  · simp

/-- rows of the adjoint of the unitary factor are left eigenvectors. -/
theorem schur_row (M : Matrix (Fin d) (Fin d) ℝ) (hM : M * Mᵀ = Mᵀ * M) (T v : Matrix (Fin d) (Fin d) ℂ) (h : IsSchur M T v) (j k : Fin d) :
    ∑ i, star (v i j) * (M i k : ℂ) = T j j * star (v k j) := by
  have hd := schur_diag M hM T v h
  have e : vᴴ * cm M = T * vᴴ := by
    rw [show cm M = v * T * vᴴ from h.eq, ← Matrix.mul_assoc, ← Matrix.mul_assoc, h.left, Matrix.one_mul]
  have := congrFun (congrFun e j) k
  rw [Matrix.mul_apply, Matrix.mul_apply] at this
  simp only [Matrix.map_apply, Matrix.conjTranspose_apply] at this
  rw [this, Finset.sum_eq_single j]
  · intro l _ hl
    rw [hd j l hl.symm, zero_mul]
  · simp

/-- the columns of the unitary factor are a basis. -/
theorem schur_complete (M : Matrix (Fin d) (Fin d) ℝ) (T v : Matrix (Fin d) (Fin d) ℂ) (h : IsSchur M T v) (w : Fin d → ℝ) (i : Fin d) :
    ∑ j, v i j * coef v w j = (w i : ℂ) := by
  unfold coef
  simp only [Finset.mul_sum]
  rw [Finset.sum_comm]
  have : ∀ k, ∑ j, v i j * (star (v k j) * (w k : ℂ)) = (if i = k then 1 else 0) * (w k : ℂ) := by
    intro k
    have := congrFun (congrFun h.right i) k
    rw [Matrix.mul_apply, Matrix.one_apply] at this
    simp only [Matrix.conjTranspose_apply] at this
    rw [← this, Finset.sum_mul]
    exact Finset.sum_congr rfl fun j _ => by ring
  rw [Finset.sum_congr rfl fun k _ => this k]
  simp

/-- each column has norm one. -/
theorem schur_unit (M : Matrix (Fin d) (Fin d) ℝ) (T v : Matrix (Fin d) (Fin d) ℂ) (h : IsSchur M T v) (j : Fin d) :
    ∑ i, Complex.normSq (v i j) = 1 := by
  have := congrFun (congrFun h.left j) j
  rw [Matrix.mul_apply, Matrix.one_apply_eq] at this
  have e : ((∑ i, Complex.normSq (v i j) : ℝ) : ℂ) = 1 := by
    push_cast
    rw [← this]
    refine Finset.sum_congr rfl fun i _ => ?_
    rw [Matrix.conjTranspose_apply, ← Complex.mul_conj (v i j), mul_comm]
    rfl
  exact_mod_cast e

theorem orth_fix (W : Matrix (Fin d) (Fin d) ℝ) (hW : Wᵀ * W = 1) (s : Fin d → ℝ) (h : W *ᵥ s = s) : Wᵀ *ᵥ s = s := by
  conv_lhs => rw [← h]
  rw [Matrix.mulVec_mulVec, hW, Matrix.one_mulVec]

theorem sub_normal (W : Matrix (Fin d) (Fin d) ℝ) (hW : Wᵀ * W = 1) : (1 - W) * (1 - W)ᵀ = (1 - W)ᵀ * (1 - W) := by
  have hW' : W * Wᵀ = 1 := mul_eq_one_comm.1 hW
  rw [Matrix.transpose_sub, Matrix.transpose_one]
  simp only [Matrix.sub_mul, Matrix.mul_sub, Matrix.one_mul, Matrix.mul_one, hW, hW']
  abel

/-- the decomposition is unique. -/
theorem about_unique (W : Matrix (Fin d) (Fin d) ℝ) (hW : Wᵀ * W = 1) (w o t o' t' : Fin d → ℝ) (h : About W w o t) (h' : About W w o' t') :
    o = o' ∧ t = t' := by
  have e1 : w = o - W *ᵥ o + t := by
    have := h.eq 0
    rw [Matrix.mulVec_zero, zero_add, zero_sub, Matrix.mulVec_neg] at this
    rw [this]; abel
  have e2 : w = o' - W *ᵥ o' + t' := by
    have := h'.eq 0
    rw [Matrix.mulVec_zero, zero_add, zero_sub, Matrix.mulVec_neg] at this
    rw [this]; abel
  have es : t' - t = (o - o') - W *ᵥ (o - o') := by
    rw [Matrix.mulVec_sub]
    have : o - W *ᵥ o + t = o' - W *ᵥ o' + t' := e1.symm.trans e2
    have h3 : t' = o - W *ᵥ o + t - (o' - W *ᵥ o') := by rw [this]; abel
    rw [h3]; abel
  have hfix : W *ᵥ (t' - t) = t' - t := by rw [Matrix.mulVec_sub, h.fix, h'.fix]
  have hfixT := orth_fix W hW _ hfix
  have hz : (t' - t) ⬝ᵥ (t' - t) = 0 := by
    conv_lhs => rw [show (t' - t) ⬝ᵥ (t' - t) = (t' - t) ⬝ᵥ ((o - o') - W *ᵥ (o - o')) by rw [← es]]
    rw [dotProduct_sub, Matrix.dotProduct_mulVec, ← Matrix.mulVec_transpose, hfixT, sub_self]
  have hs : t' - t = 0 := dotProduct_self_eq_zero.1 hz
  have hk : W *ᵥ (o - o') = o - o' := by
    rw [hs] at es
    exact (sub_eq_zero.1 es.symm).symm
  have hz2 : (o - o') ⬝ᵥ (o - o') = 0 := by
    rw [dotProduct_sub, h.near _ hk, h'.near _ hk, sub_zero]
  exact ⟨sub_eq_zero.1 (dotProduct_self_eq_zero.1 hz2), (sub_eq_zero.1 hs).symm⟩

/-- what `_origin_trans` computes, if the eigenvalues are told apart correctly from zero. -/
theorem originTrans_about (eig : Eig d) (W : Matrix (Fin d) (Fin d) ℝ) (hW : Wᵀ * W = 1) (w : Fin d → ℝ)
    (h : IsSchur (1 - W) (eig (1 - W)).1 (eig (1 - W)).2) (hs : ∀ j, czero ((eig (1 - W)).1 j j) → (eig (1 - W)).1 j j = 0) :
    About W w (originTrans eig W w).1 (originTrans eig W w).2 := by
  classical
  have hn := sub_normal W hW
  generalize eq : eig (1 - W) = r at h hs
  obtain ⟨T, v⟩ := r
  simp only at h hs
  have hcol := schur_col (1 - W) hn T v h
  have hrow := schur_row (1 - W) hn T v h
  have hz : ∀ j, czero (T j j) ↔ T j j = 0 := by
    intro j
    refine ⟨hs j, fun h0 => ?_⟩
    unfold czero
    rw [h0, norm_zero]
    unfold tol
    norm_num
  -- complex vectors
  set O : Fin d → ℂ := fun i => ∑ j, if czero (T j j) then (0 : ℂ) else v i j * (1 / T j j) * coef v w j with hO
  set R : Fin d → ℂ := fun i => ∑ j, if czero (T j j) then v i j * coef v w j else (0 : ℂ) with hR
  have eo : (originTrans eig W w).1 = fun i => (O i).re := by
    unfold originTrans
    simp only [eq]
    rfl
  have et : (originTrans eig W w).2 = fun i => (R i).re := by
    unfold originTrans
    simp only [eq]
    rfl
  have swap : ∀ (f : Fin d → Fin d → ℂ) (i : Fin d), ∑ k, ((1 - W) i k : ℂ) * ∑ j, f k j = ∑ j, ∑ k, ((1 - W) i k : ℂ) * f k j := by
    intro f i
    simp only [Finset.mul_sum]
    exact Finset.sum_comm
  have hMO : ∀ i, ∑ k, (((1 - W) i k : ℝ) : ℂ) * O k + R i = (w i : ℂ) := by
    intro i
    rw [← schur_complete (1 - W) T v h w i, hO, hR]
    simp only
    rw [Finset.sum_congr rfl fun k _ => Finset.mul_sum .., Finset.sum_comm, ← Finset.sum_add_distrib]
    refine Finset.sum_congr rfl fun j _ => ?_
    by_cases hj : czero (T j j)
    · simp only [hj, if_true, mul_zero, Finset.sum_const_zero, zero_add]
    · simp only [hj, if_false, add_zero]
      have hne : T j j ≠ 0 := fun e => hj ((hz j).2 e)
      have : ∑ k, (((1 - W) i k : ℝ) : ℂ) * (v k j * (1 / T j j) * coef v w j) = (∑ k, (((1 - W) i k : ℝ) : ℂ) * v k j) * ((1 / T j j) * coef v w j) := by
        rw [Finset.sum_mul]
        exact Finset.sum_congr rfl fun k _ => by ring
      rw [this, hcol]
      field_simp
  have hMR : ∀ i, ∑ k, (((1 - W) i k : ℝ) : ℂ) * R k = 0 := by
    intro i
    rw [hR]
    simp only
    rw [Finset.sum_congr rfl fun k _ => Finset.mul_sum .., Finset.sum_comm]
    refine Finset.sum_eq_zero fun j _ => ?_
    by_cases hj : czero (T j j)
    · simp only [hj, if_true]
      have : ∑ k, (((1 - W) i k : ℝ) : ℂ) * (v k j * coef v w j) = (∑ k, (((1 - W) i k : ℝ) : ℂ) * v k j) * coef v w j := by
        rw [Finset.sum_mul]
        exact Finset.sum_congr rfl fun k _ => by ring
      rw [this, hcol, (hz j).1 hj]
      ring
    · simp only [hj, if_false, mul_zero, Finset.sum_const_zero]
  have reMul : ∀ (f : Fin d → ℂ) (i : Fin d), (∑ k, (((1 - W) i k : ℝ) : ℂ) * f k).re = ((1 - W) *ᵥ fun k => (f k).re) i := by
    intro f i
    rw [Complex.re_sum, Matrix.mulVec, dotProduct]
    exact Finset.sum_congr rfl fun k _ => Complex.re_ofReal_mul _ _
  rw [eo, et]
  have h1 : (1 - W) *ᵥ (fun i => (O i).re) + (fun i => (R i).re) = w := by
    funext i
    rw [Pi.add_apply, ← reMul, ← Complex.add_re, hMO]
    rfl
  have h2 : (1 - W) *ᵥ (fun i => (R i).re) = 0 := by
    funext i
    rw [← reMul, hMR]
    rfl
  rw [Matrix.sub_mulVec, Matrix.one_mulVec] at h1 h2
  refine ⟨fun x => ?_, (sub_eq_zero.1 h2).symm, fun k hk => ?_⟩
  · rw [Matrix.mulVec_sub]
    conv_lhs => rw [← h1]
    abel
  · -- the kernel is orthogonal to the columns with other eigenvalues
    have hker : ∀ j, ¬ czero (T j j) → ∑ i, star (v i j) * (k i : ℂ) = 0 := by
      intro j hj
      have hne : T j j ≠ 0 := fun e => hj ((hz j).2 e)
      have e1 : ∑ m, (∑ i, star (v i j) * (((1 - W) i m : ℝ) : ℂ)) * (k m : ℂ) = T j j * ∑ i, star (v i j) * (k i : ℂ) := by
        simp only [hrow]
        rw [Finset.mul_sum]
        exact Finset.sum_congr rfl fun m _ => by ring
      have e2 : ∑ m, (∑ i, star (v i j) * (((1 - W) i m : ℝ) : ℂ)) * (k m : ℂ) = 0 := by
        rw [Finset.sum_congr rfl fun m _ => Finset.sum_mul .., Finset.sum_comm]
        refine Finset.sum_eq_zero fun i _ => ?_
        have hk' : ((1 - W) *ᵥ k) i = 0 := by
          rw [Matrix.sub_mulVec, Matrix.one_mulVec, hk, sub_self]
          rfl
        rw [Matrix.mulVec, dotProduct] at hk'
        have : ∑ m, star (v i j) * (((1 - W) i m : ℝ) : ℂ) * (k m : ℂ) = star (v i j) * ((∑ m, (1 - W) i m * k m : ℝ) : ℂ) := by
          push_cast
          rw [Finset.mul_sum]
          exact Finset.sum_congr rfl fun m _ => by ring
        rw [this, hk']
        simp
      rw [e1] at e2
      exact (mul_eq_zero.1 e2).resolve_left hne
    have hker' : ∀ j, ¬ czero (T j j) → ∑ i, (k i : ℂ) * v i j = 0 := by
      intro j hj
      have := congrArg star (hker j hj)
      rw [star_sum, star_zero] at this
      rw [← this]
      refine Finset.sum_congr rfl fun i _ => ?_
      rw [star_mul', star_star]
      simp [mul_comm]
    have e3 : ∑ i, (k i : ℂ) * O i = 0 := by
      rw [hO]
      simp only
      rw [Finset.sum_congr rfl fun i _ => Finset.mul_sum .., Finset.sum_comm]
      refine Finset.sum_eq_zero fun j _ => ?_
      by_cases hj : czero (T j j)
      · simp [hj]
      · simp only [hj, if_false]
        have : ∑ i, (k i : ℂ) * (v i j * (1 / T j j) * coef v w j) = (∑ i, (k i : ℂ) * v i j) * ((1 / T j j) * coef v w j) := by
          rw [Finset.sum_mul]
          exact Finset.sum_congr rfl fun i _ => by ring
        rw [this, hker' j hj, zero_mul]
    have := congrArg Complex.re e3
    rw [Complex.re_sum] at this
    rw [dotProduct]
    simpa using this

end Verif.GroupNames
