import Verif.Props.Eigenstate
import Verif.Props.Machines

/-! C225: expectation values on mixed states. -/

set_option linter.unusedSectionVars false

namespace Verif.Mixed
open Verif.LocalOp Verif.LocalValues Verif.Hilbert
open scoped ComplexOrder

variable {α : Type} [LinearOrder α] [Inhabited α] {N : Nat} {cut : Cutoff ℂ} {hi : Fin N → List α}

/-- specification: `Tr(O ρ) / Tr ρ` over the basis of the space, `ρ = exp logVal`. -/
noncomputable def traceExp (hi : Fin N → List α) (O : (Fin N → α) → (Fin N → α) → ℂ) (logVal : (Fin N → α) → (Fin N → α) → ℂ) : ℂ :=
  (∑ x ∈ basisStates hi, ∑ x' ∈ basisStates hi, O x x' * Complex.exp (logVal x' x)) / ∑ x ∈ basisStates hi, Complex.exp (logVal x x)

/-- specification: the density matrix as a matrix over the basis. -/
noncomputable def rho (hi : Fin N → List α) (logVal : (Fin N → α) → (Fin N → α) → ℂ) : Matrix {x // x ∈ basisStates hi} {x // x ∈ basisStates hi} ℂ :=
  Matrix.of fun a b => Complex.exp (logVal a b)

/-- specification: `e` is an eigenvalue of `O` on the space. -/
def Eigenvalue (hi : Fin N → List α) (O : (Fin N → α) → (Fin N → α) → ℂ) (e : ℝ) : Prop :=
  ∃ φ : (Fin N → α) → ℂ, (∃ x ∈ basisStates hi, φ x ≠ 0) ∧ ∀ x ∈ basisStates hi, ∑ x' ∈ basisStates hi, O x x' * φ x' = e * φ x

/-- C225: the local values of an operator on a mixed state, averaged over all configurations with the weights of the diagonal of the density
    matrix, are `Tr(O ρ) / Tr ρ`. -/
theorem C225_trace (hid : Ideal cut) (hs : SortedSpace hi) (op : LOp ℂ α N) (h : Built cut hi op) (gm : Nat → ℂ) (gx : Nat → Fin N → α)
    (logVal : (Fin N → α) → (Fin N → α) → ℂ) (v : List (Fin N → α)) (hne : v ≠ []) (hnd : v.Nodup) (hv : ∀ x, x ∈ v ↔ Valid hi x) :
    ∃ lv, localValuesOpOp hi op gm gx logVal 2 N v none = .ok lv
      ∧ (List.zipWith (fun x l => Complex.exp (logVal x x) * l) v lv).sum / (v.map fun x => Complex.exp (logVal x x)).sum
        = traceExp hi (matrixOf hi op) logVal := by
  refine ⟨_, C93_density_matrix hid hs op h gm gx logVal v hne fun x hx => (hv x).1 hx, ?_⟩
  have hfin : v.toFinset = basisStates hi := by
    ext x
    rw [List.mem_toFinset, hv, Verif.LocalOp.mem_basis]
  have hsum : ∀ f : (Fin N → α) → ℂ, (v.map f).sum = ∑ x ∈ basisStates hi, f x := by
    intro f
    rw [← hfin, List.sum_toFinset f hnd]
  rw [List.zipWith_map_right, List.zipWith_self, hsum, hsum]
  unfold traceExp
  congr 1
  refine Finset.sum_congr rfl fun x _ => ?_
  rw [mul_div_cancel₀ _ (Complex.exp_ne_zero _)]

open scoped MatrixOrder in
theorem trace_nonneg_of_psd {ι : Type} [Fintype ι] [DecidableEq ι] (A R : Matrix ι ι ℂ) (hA : A.PosSemidef) (hR : R.PosSemidef) :
    0 ≤ (A * R).trace := by
  obtain ⟨B, rfl⟩ := CStarAlgebra.nonneg_iff_eq_star_mul_self.mp hR.nonneg
  rw [Matrix.star_eq_conjTranspose, ← Matrix.mul_assoc, Matrix.trace_mul_comm, ← Matrix.mul_assoc]
  exact (hA.mul_mul_conjTranspose_same B).trace_nonneg

theorem diag_pos (logVal : (Fin N → α) → (Fin N → α) → ℂ) (hR : (rho hi logVal).PosSemidef) (hne : (basisStates hi).Nonempty) :
    ∃ D : ℝ, 0 < D ∧ ∑ x ∈ basisStates hi, Complex.exp (logVal x x) = (D : ℂ) := by
  have hd : ∀ x ∈ basisStates hi, 0 < (Complex.exp (logVal x x)).re ∧ (Complex.exp (logVal x x)).im = 0 := by
    intro x hx
    have h0 : 0 ≤ Complex.exp (logVal x x) := hR.diag_nonneg (i := ⟨x, hx⟩)
    obtain ⟨h1, h2⟩ := Complex.nonneg_iff.1 h0
    refine ⟨lt_of_le_of_ne h1 fun e => ?_, h2.symm⟩
    exact Complex.exp_ne_zero (logVal x x) (Complex.ext e.symm h2.symm)
  refine ⟨∑ x ∈ basisStates hi, (Complex.exp (logVal x x)).re, Finset.sum_pos (fun x hx => (hd x hx).1) hne, ?_⟩
  rw [Complex.ofReal_sum]
  refine Finset.sum_congr rfl fun x hx => ?_
  exact Complex.ext (by simp) (by simp [(hd x hx).2])

theorem trace_shifted (O : (Fin N → α) → (Fin N → α) → ℂ) (E : ℝ) (logVal : (Fin N → α) → (Fin N → α) → ℂ) :
    (Verif.Eigen.shifted hi O E * rho hi logVal).trace
      = (∑ x ∈ basisStates hi, ∑ x' ∈ basisStates hi, O x x' * Complex.exp (logVal x' x)) - E * ∑ x ∈ basisStates hi, Complex.exp (logVal x x) := by
  have h1 : ∀ a : {x // x ∈ basisStates hi}, (Verif.Eigen.shifted hi O E * rho hi logVal) a a
      = (∑ b : {x // x ∈ basisStates hi}, O a b * Complex.exp (logVal b a)) - E * Complex.exp (logVal a a) := by
    intro a
    exact Verif.Eigen.shifted_mulVec (fun b => Complex.exp (logVal b a)) a
  unfold Matrix.trace
  simp only [Matrix.diag_apply, h1, Finset.sum_sub_distrib]
  rw [← Finset.sum_coe_sort (basisStates hi), ← Finset.sum_coe_sort (basisStates hi) fun x => Complex.exp (logVal x x), Finset.mul_sum]
  congr 1
  refine Finset.sum_congr rfl fun a _ => ?_
  rw [← Finset.sum_coe_sort (basisStates hi)]

/-- C225: for a Hermitian operator and a positive semidefinite density matrix the expectation value is real and lies between the lowest and the
    highest eigenvalue. -/
theorem C225_bounds (O : (Fin N → α) → (Fin N → α) → ℂ) (hO : ∀ x ∈ basisStates hi, ∀ x' ∈ basisStates hi, O x' x = star (O x x'))
    (E0 E1 : ℝ) (hE : ∀ e, Eigenvalue hi O e → E0 ≤ e ∧ e ≤ E1) (hne : (basisStates hi).Nonempty)
    (logVal : (Fin N → α) → (Fin N → α) → ℂ) (hR : (rho hi logVal).PosSemidef) :
    (traceExp hi O logVal).im = 0 ∧ E0 ≤ (traceExp hi O logVal).re ∧ (traceExp hi O logVal).re ≤ E1 := by
  obtain ⟨D, hD, hDe⟩ := diag_pos logVal hR hne
  have hDc : (D : ℂ) ≠ 0 := by exact_mod_cast hD.ne'
  have hlow := Verif.Eigen.shifted_psd (E0 := E0) hO fun e φ h1 h2 => (hE e ⟨φ, h1, h2⟩).1
  have hneg : ∀ x ∈ basisStates hi, ∀ x' ∈ basisStates hi, (fun a b => -O a b) x' x = star ((fun a b => -O a b) x x') := by
    intro x hx x' hx'
    simp only [star_neg, hO x hx x' hx']
  have hhigh := Verif.Eigen.shifted_psd (E0 := -E1) hneg fun e φ h1 h2 => by
    have := (hE (-e) ⟨φ, h1, fun x hx => by
      have h := h2 x hx
      simp only [neg_mul, Finset.sum_neg_distrib] at h
      push_cast
      rw [neg_mul, ← h, neg_neg]⟩).2
    linarith
  have t1 := trace_nonneg_of_psd _ _ hlow hR
  have t2 := trace_nonneg_of_psd _ _ hhigh hR
  rw [trace_shifted, hDe] at t1 t2
  set T := ∑ x ∈ basisStates hi, ∑ x' ∈ basisStates hi, O x x' * Complex.exp (logVal x' x) with hT
  have hTn : ∑ x ∈ basisStates hi, ∑ x' ∈ basisStates hi, (fun a b => -O a b) x x' * Complex.exp (logVal x' x) = -T := by
    simp only [neg_mul, Finset.sum_neg_distrib, hT]
  rw [hTn] at t2
  obtain ⟨a1, b1⟩ := Complex.nonneg_iff.1 t1
  obtain ⟨a2, b2⟩ := Complex.nonneg_iff.1 t2
  have hexp : traceExp hi O logVal = T / (D : ℂ) := by unfold traceExp; rw [hDe]
  rw [hexp]
  simp only [Complex.sub_re, Complex.sub_im, Complex.neg_re, Complex.neg_im, Complex.mul_re, Complex.mul_im, Complex.ofReal_re, Complex.ofReal_im,
    mul_zero, sub_zero, zero_mul, add_zero, neg_mul] at a1 b1 a2 b2
  refine ⟨?_, ?_, ?_⟩
  · rw [Complex.div_ofReal_im, ← b1, zero_div]
  · rw [Complex.div_ofReal_re, le_div_iff₀ hD]; linarith
  · rw [Complex.div_ofReal_re, div_le_iff₀ hD]
    simp at a2
    linarith

/-- C225: on a pure state `ρ = ψ ψ†` the expectation value is `⟨ψ|O|ψ⟩/⟨ψ|ψ⟩`. -/
theorem C225_pure (O : (Fin N → α) → (Fin N → α) → ℂ) (l : (Fin N → α) → ℂ) :
    traceExp hi O (fun x x' => l x + star (l x')) = Verif.Metro.expectation hi O l := by
  unfold traceExp Verif.Metro.expectation
  have hstar : ∀ z : ℂ, Complex.exp (star z) = star (Complex.exp z) := fun z => Complex.exp_conj z
  congr 1
  · refine Finset.sum_congr rfl fun x _ => Finset.sum_congr rfl fun x' _ => ?_
    rw [Complex.exp_add, hstar]
    ring
  · rw [Complex.ofReal_sum]
    refine Finset.sum_congr rfl fun x _ => ?_
    rw [Complex.exp_add, hstar, Complex.normSq_eq_conj_mul_self, mul_comm]
    rfl

/-- a configuration of the space as the input of a machine. -/
noncomputable def row (x : Fin N → ℝ) : Nat → ℝ := fun i => if h : i < N then x ⟨i, h⟩ else 0

/-- C225: the density matrix of an NDM with real parameters is positive semidefinite on every space, so expectation values of Hermitian operators
    are real and between the extreme eigenvalues, whatever the parameters. -/
theorem C225_ndm {hi : Fin N → List ℝ} (Fp Fm : Nat) (P : Verif.Machines.RealParams) (ρ : (Nat → ℝ) → (Nat → ℝ) → ℂ)
    (hρ : Verif.Machines.IsDensity N Fp Fm P ρ) (logVal : (Fin N → ℝ) → (Fin N → ℝ) → ℂ)
    (hl : ∀ x ∈ basisStates hi, ∀ x' ∈ basisStates hi, Complex.exp (logVal x x') = ρ (row x) (row x'))
    (O : (Fin N → ℝ) → (Fin N → ℝ) → ℂ) (hO : ∀ x ∈ basisStates hi, ∀ x' ∈ basisStates hi, O x' x = star (O x x'))
    (E0 E1 : ℝ) (hE : ∀ e, Eigenvalue hi O e → E0 ≤ e ∧ e ≤ E1) (hne : (basisStates hi).Nonempty) :
    (rho hi logVal).PosSemidef
      ∧ (traceExp hi O logVal).im = 0 ∧ E0 ≤ (traceExp hi O logVal).re ∧ (traceExp hi O logVal).re ≤ E1 := by
  have hpsd : (rho hi logVal).PosSemidef := by
    obtain ⟨m, f, hf⟩ := Verif.Machines.density_gram N Fp Fm P ρ hρ
    have hB : rho hi logVal = (Matrix.of fun (a : {x // x ∈ basisStates hi}) (k : Fin m) => f k (row a.1))
        * (Matrix.of fun (a : {x // x ∈ basisStates hi}) (k : Fin m) => f k (row a.1)).conjTranspose := by
      ext a b
      simp only [rho, Matrix.of_apply, Matrix.mul_apply, Matrix.conjTranspose_apply]
      rw [hl a a.2 b b.2, hf, Finset.sum_range]
    rw [hB]
    exact Matrix.posSemidef_self_mul_conjTranspose _
  exact ⟨hpsd, C225_bounds O hO E0 E1 hE hne logVal hpsd⟩

/-! ## Examples -/

/-- a mixed state that is not pure on one spin: `ρ = [[1, e⁻¹], [e⁻¹, 1]]`, on which `σᶻ` has the expectation value zero, between its eigenvalues. -/
example : ∃ (O : (Fin 1 → ℤ) → (Fin 1 → ℤ) → ℂ) (logVal : (Fin 1 → ℤ) → (Fin 1 → ℤ) → ℂ),
    (∀ x ∈ basisStates (fun _ : Fin 1 => [-1, 1]), ∀ x' ∈ basisStates (fun _ : Fin 1 => [-1, 1]), O x' x = star (O x x'))
    ∧ (∀ e, Eigenvalue (fun _ : Fin 1 => [-1, 1]) O e → -1 ≤ e ∧ e ≤ 1)
    ∧ (basisStates (fun _ : Fin 1 => ([-1, 1] : List ℤ))).Nonempty
    ∧ (rho (fun _ : Fin 1 => [-1, 1]) logVal).PosSemidef := by
  refine ⟨fun x x' => if x = x' then (x 0 : ℂ) else 0, fun x x' => if x = x' then 0 else -1, ?_, ?_, ?_, ?_⟩
  · intro x _ x' _
    by_cases h : x = x'
    · subst h; simp
    · simp [h, Ne.symm h]
  · rintro e ⟨φ, ⟨x, hx, hφ⟩, h⟩
    have h1 := h x hx
    simp only [ite_mul, zero_mul, Finset.sum_ite_eq, hx, if_true] at h1
    have h2 := mul_right_cancel₀ hφ h1
    have hv : x 0 = -1 ∨ x 0 = 1 := by
      have := (Verif.LocalOp.mem_basis x).1 hx 0
      simpa using this
    have h3 : ((x 0 : ℝ) : ℂ) = (e : ℂ) := by rw [← h2]; simp
    have h4 : (x 0 : ℝ) = e := Complex.ofReal_injective h3
    rw [← h4]
    rcases hv with hv | hv <;> rw [hv] <;> norm_num
  · exact ⟨fun _ => 1, (Verif.LocalOp.mem_basis _).2 fun i => by simp⟩
  · have hs : rho (fun _ : Fin 1 => ([-1, 1] : List ℤ)) (fun x x' => if x = x' then 0 else -1)
        = (((1 - Real.exp (-1) : ℝ)) : ℂ) • (1 : Matrix _ _ ℂ) + ((Real.exp (-1) : ℝ) : ℂ) • Matrix.vecMulVec (fun _ => (1 : ℂ)) (star fun _ => (1 : ℂ)) := by
      ext a b
      simp only [rho, Matrix.of_apply, Matrix.add_apply, Matrix.smul_apply, Matrix.one_apply, Matrix.vecMulVec_apply, smul_eq_mul, Pi.star_apply, star_one, mul_one]
      by_cases h : a = b
      · subst h; simp
      · have h' : (a : Fin 1 → ℤ) ≠ b := fun e => h (Subtype.ext e)
        simp [h, h']
    rw [hs]
    refine Matrix.PosSemidef.add ?_ ?_
    · refine Matrix.PosSemidef.smul Matrix.PosSemidef.one ?_
      rw [Complex.zero_le_real]
      have := Real.exp_lt_one_iff.2 (by norm_num : (-1 : ℝ) < 0)
      linarith
    · refine Matrix.PosSemidef.smul (Matrix.posSemidef_vecMulVec_self_star _) ?_
      rw [Complex.zero_le_real]
      exact (Real.exp_pos _).le

end Verif.Mixed
