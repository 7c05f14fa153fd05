import Verif.Model.SteadyState
import Mathlib.LinearAlgebra.Matrix.DotProduct
import Mathlib.Data.Fin.VecNotation
import Mathlib.Algebra.BigOperators.Field
import Mathlib.Tactic.Linarith
import Mathlib.LinearAlgebra.Matrix.Notation

/-!
C71: exact steady states.
-/

namespace Verif.SteadyState

open Matrix

variable {n : Type} [Fintype n]

/-- `‖L v‖² = ⟨v, L†L v⟩`. -/
theorem norm_dag (L : Matrix n n ℂ) (v : n → ℂ) :
    star v ⬝ᵥ ((Lᴴ * L) *ᵥ v) = star (L *ᵥ v) ⬝ᵥ (L *ᵥ v) := by
  rw [← Matrix.mulVec_mulVec, Matrix.dotProduct_mulVec, ← Matrix.star_mulVec]

theorem star_dot_re (v : n → ℂ) : (star v ⬝ᵥ v) = ((∑ i, Complex.normSq (v i) : ℝ) : ℂ) := by
  simp only [dotProduct, Pi.star_apply, Complex.ofReal_sum]
  apply Finset.sum_congr rfl
  intro i _
  rw [Complex.star_def, ← Complex.normSq_eq_conj_mul_self]

theorem normSq_sum_zero (v : n → ℂ) (h : ∑ i, Complex.normSq (v i) = 0) : v = 0 := by
  funext i
  have := (Finset.sum_eq_zero_iff_of_nonneg (fun i _ => Complex.normSq_nonneg (v i))).mp h i (Finset.mem_univ i)
  exact Complex.normSq_eq_zero.mp this

/-- `sparse=True`: the matrix that is diagonalised is `L†L`, so that for a Lindbladian (which has a nonzero
stationary vector) the eigenvector of the smallest eigenvalue satisfies `L v = 0`. Not covered: `sparse=False`, for
which it fails. -/
theorem C71_sparse (L : Matrix n n ℂ) (hk : ∃ u : n → ℂ, u ≠ 0 ∧ L *ᵥ u = 0) (v : n → ℂ)
    (h : IsLowest (ldagl true L) v) : L *ᵥ v = 0 := by
  obtain ⟨hv, w, hw, hmin⟩ := h
  obtain ⟨u, hu, hLu⟩ := hk
  have hd : ldagl true L = Lᴴ * L := rfl
  rw [hd] at hw hmin
  have hw0 : w ≤ 0 := by
    apply hmin 0 u hu
    rw [← Matrix.mulVec_mulVec, hLu, Matrix.mulVec_zero]
    simp
  have h1 := norm_dag L v
  rw [hw, dotProduct_smul, star_dot_re, star_dot_re, smul_eq_mul, ← Complex.ofReal_mul] at h1
  have h2 := Complex.ofReal_injective h1
  have h3 : 0 ≤ ∑ i, Complex.normSq (v i) := Finset.sum_nonneg fun i _ => Complex.normSq_nonneg _
  have h4 : 0 ≤ ∑ i, Complex.normSq ((L *ᵥ v) i) := Finset.sum_nonneg fun i _ => Complex.normSq_nonneg _
  have h5 : w * ∑ i, Complex.normSq (v i) ≤ 0 := mul_nonpos_of_nonpos_of_nonneg hw0 h3
  exact normSq_sum_zero _ (le_antisymm (h2 ▸ h5) h4)

/-- the density matrix as the vector on which the Lindbladian acts (row-major). -/
def vec (M : Nat) (r : Matrix (Fin M) (Fin M) ℂ) : Fin (M * M) → ℂ := fun k =>
  r ⟨k.val / M, Nat.div_lt_of_lt_mul k.isLt⟩
    ⟨k.val % M, Nat.mod_lt _ (by
      rcases Nat.eq_zero_or_pos M with h | h
      · have hk := k.isLt
        have e : M * M = 0 := by rw [h]
        omega
      · exact h)⟩

theorem vec_toRho (M : Nat) (v : Fin (M * M) → ℂ) : ∃ t : ℂ, vec M (toRho M v) = fun k => v k / t := by
  have h : ∃ (t : ℂ) (r : Matrix (Fin M) (Fin M) ℂ), toRho M v = (fun i j => r i j / t) ∧ vec M r = v := by
    refine ⟨_, _, rfl, ?_⟩
    funext k
    simp only [vec]
    congr 1
    apply Fin.ext
    simp only
    rw [Nat.mul_comm]
    exact Nat.div_add_mod _ _
  obtain ⟨t, r, h1, h2⟩ := h
  refine ⟨t, ?_⟩
  rw [h1, ← h2]
  rfl

/-- `sparse=True`: what is returned is stationary and has trace one, if the stationary vector found has nonzero
trace. -/
theorem C71_rho (M : Nat) (L : Matrix (Fin (M * M)) (Fin (M * M)) ℂ)
    (hk : ∃ u : Fin (M * M) → ℂ, u ≠ 0 ∧ L *ᵥ u = 0) (v : Fin (M * M) → ℂ) (h : IsLowest (ldagl true L) v) :
    L *ᵥ vec M (toRho M v) = 0 ∧
      ((∃ i j : Fin M, toRho M v i j ≠ 0) → ∑ i, toRho M v i i = 1) := by
  have h0 := C71_sparse L hk v h
  constructor
  · obtain ⟨t, ht⟩ := vec_toRho M v
    rw [ht]
    have : (fun k => v k / t) = t⁻¹ • v := by
      funext k
      simp [div_eq_inv_mul]
    rw [this, Matrix.mulVec_smul, h0, smul_zero]
  · rintro ⟨i, j, hij⟩
    simp only [toRho] at hij ⊢
    rw [← Finset.sum_div]
    apply div_self
    intro e
    rw [e, div_zero] at hij
    exact hij rfl

/-- the claim for one value of `sparse`. -/
def SteadySpec (sparse : Bool) : Prop :=
  ∀ (M : Nat) (L : Matrix (Fin (M * M)) (Fin (M * M)) ℂ) (v : Fin (M * M) → ℂ),
    (∃ u : Fin (M * M) → ℂ, u ≠ 0 ∧ L *ᵥ u = 0) → IsLowest (ldagl sparse L) v → L *ᵥ v = 0

/-- Lindbladian of a qubit with pump and decay of the same rate. -/
noncomputable def exL : Matrix (Fin (2 * 2)) (Fin (2 * 2)) ℂ :=
  !![-1, 0, 0, 1; 0, -1, 0, 0; 0, 0, -1, 0; 1, 0, 0, -1]

/-- its stationary state is the maximally mixed one. -/
theorem exL_kernel : (![1, 0, 0, 1] : Fin (2 * 2) → ℂ) ≠ 0 ∧ exL *ᵥ (![1, 0, 0, 1] : Fin (2 * 2) → ℂ) = 0 := by
  constructor
  · intro h
    have := congrFun h 0
    simp at this
  · funext i
    fin_cases i <;> simp [exL, Matrix.mulVec, dotProduct, Fin.sum_univ_succ]

theorem exL_lowest : IsLowest (ldagl false exL) (![1, 0, 0, -1] : Fin (2 * 2) → ℂ) := by
  have hm : ldagl false exL = !![1, 0, 0, 1; 0, 1, 0, 0; 0, 0, 1, 0; 1, 0, 0, 1] := by
    funext i j
    fin_cases i <;> fin_cases j <;> simp [ldagl, exL, Matrix.hadamard, Matrix.conjTranspose]
  rw [hm]
  refine ⟨?_, 0, ?_, ?_⟩
  · intro h
    have := congrFun h 0
    simp at this
  · funext i
    fin_cases i <;> simp [Matrix.mulVec, dotProduct, Fin.sum_univ_succ]
  · intro w u hu he
    by_contra hw
    push Not at hw
    apply hu
    have e0 := congrFun he 0
    have e1 := congrFun he 1
    have e2 := congrFun he 2
    have e3 := congrFun he 3
    simp [Matrix.mulVec, dotProduct, Fin.sum_univ_succ] at e0 e1 e2 e3
    have c1 : (1 - (w : ℂ)) ≠ 0 := by
      rw [← Complex.ofReal_one, ← Complex.ofReal_sub, Complex.ofReal_ne_zero]
      linarith
    have c2 : (2 - (w : ℂ)) ≠ 0 := by
      have : ((2 - w : ℝ) : ℂ) = 2 - (w : ℂ) := by push_cast; ring
      rw [← this, Complex.ofReal_ne_zero]
      linarith
    have c0 : (w : ℂ) ≠ 0 := by
      rw [Complex.ofReal_ne_zero]
      exact hw.ne
    have u1 : u 1 = 0 := by
      have : (1 - (w : ℂ)) * u 1 = 0 := by rw [sub_mul, one_mul, ← e1, sub_self]
      exact (mul_eq_zero.mp this).resolve_left c1
    have u2 : u 2 = 0 := by
      have : (1 - (w : ℂ)) * u 2 = 0 := by rw [sub_mul, one_mul, ← e2, sub_self]
      exact (mul_eq_zero.mp this).resolve_left c1
    have u03 : u 0 = u 3 := mul_left_cancel₀ c0 (e0.symm.trans e3)
    have u0 : u 0 = 0 := by
      have : (2 - (w : ℂ)) * u 0 = 0 := by
        rw [← u03] at e0
        rw [sub_mul, ← e0]
        ring
      exact (mul_eq_zero.mp this).resolve_left c2
    funext i
    fin_cases i
    · exact u0
    · exact u1
    · exact u2
    · exact u03 ▸ u0

/-- a stationary vector is an eigenvector of the smallest eigenvalue of `L†L`. -/
theorem C71_lowest (L : Matrix n n ℂ) (u : n → ℂ) (hu : u ≠ 0) (h : L *ᵥ u = 0) : IsLowest (ldagl true L) u := by
  have hd : ldagl true L = Lᴴ * L := rfl
  refine ⟨hu, 0, ?_, ?_⟩
  · rw [hd, ← Matrix.mulVec_mulVec, h, Matrix.mulVec_zero]
    simp
  · intro w v hv hw
    rw [hd] at hw
    have h1 := norm_dag L v
    rw [hw, dotProduct_smul, star_dot_re, star_dot_re, smul_eq_mul, ← Complex.ofReal_mul] at h1
    have h2 := Complex.ofReal_injective h1
    have h4 : 0 ≤ ∑ i, Complex.normSq ((L *ᵥ v) i) := Finset.sum_nonneg fun i _ => Complex.normSq_nonneg _
    have h3 : 0 < ∑ i, Complex.normSq (v i) := by
      refine lt_of_le_of_ne (Finset.sum_nonneg fun i _ => Complex.normSq_nonneg _) fun e => hv ?_
      exact normSq_sum_zero v e.symm
    rw [← h2] at h4
    exact nonneg_of_mul_nonneg_left h4 h3

example : (∃ u : Fin (2 * 2) → ℂ, u ≠ 0 ∧ exL *ᵥ u = 0) ∧ IsLowest (ldagl true exL) ![1, 0, 0, 1] :=
  ⟨⟨_, exL_kernel⟩, C71_lowest exL _ exL_kernel.1 exL_kernel.2⟩

/-- With `sparse=False` the elementwise product is diagonalised; for this Lindbladian the eigenvector found is
not stationary, and its trace is zero. -/
theorem C125_dense_refuted : ¬ SteadySpec false := by
  intro h
  have := h 2 exL ![1, 0, 0, -1] ⟨_, exL_kernel⟩ exL_lowest
  have h0 := congrFun this 0
  simp [exL, Matrix.mulVec, dotProduct, Fin.sum_univ_succ] at h0

end Verif.SteadyState
