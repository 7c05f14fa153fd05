import Verif.Model.SpinBoson
import Verif.Props.LocalOperator
import Mathlib.LinearAlgebra.Matrix.Hermitian
import Mathlib.Tactic.NoncommRing
import Mathlib.Tactic.LinearCombination
import Mathlib.Tactic.FieldSimp

/-! C91 (spin operators), C92 (boson operators). -/

set_option linter.unusedSectionVars false
set_option linter.unusedVariables false

namespace Verif.SpinBoson
open Verif.LocalOp Verif.Hilbert

/-! ## Entries -/

theorem arange_up (N : Nat) : arange 1 N 1 = (List.range (N - 1)).map fun i : Nat => (1 : ℚ) + i := by
  unfold arange
  have : ⌈((N : ℚ) - 1) / 1⌉.toNat = N - 1 := by
    rw [div_one]
    rcases N with _ | N
    · norm_num
    · push_cast
      rw [add_sub_cancel_right, Int.ceil_natCast]
      simp
  rw [this]
  simp

theorem arange_zero (N : Nat) : arange 0 N 1 = (List.range N).map fun i : Nat => (i : ℚ) := by
  unfold arange
  have : ⌈((N : ℚ) - 0) / 1⌉.toNat = N := by
    rw [div_one, sub_zero, Int.ceil_natCast]
    simp
  rw [this]
  simp

theorem arange_down (N : Nat) (a b : ℚ) (h : a - b = N) : arange a b (-1) = (List.range N).map fun i : Nat => a - i := by
  unfold arange
  have : ⌈(b - a) / -1⌉.toNat = N := by
    have e : (b - a) / -1 = ((N : ℤ) : ℚ) := by
      push_cast
      rw [← h]; ring
    rw [e, Int.ceil_intCast]
    simp
  rw [this]
  congr 1
  funext i
  ring

theorem npDiag_up (M : Nat) (g : Nat → ℂ) (i j : Nat) :
    (npDiag ((List.range M).map g) 1).f i j = if j = i + 1 ∧ i < M then g i else 0 := by
  unfold npDiag
  simp only
  by_cases h : j = i + 1
  · subst h
    have e : ((i + 1 : Nat) : ℤ) - i = 1 := by push_cast; ring
    rw [if_pos e, Nat.min_eq_left (by omega)]
    by_cases hi : i < M
    · rw [if_pos ⟨rfl, hi⟩, List.getD_eq_getElem?_getD, List.getElem?_map, List.getElem?_range hi]; rfl
    · rw [if_neg (fun h => hi h.2), List.getD_eq_getElem?_getD, List.getElem?_eq_none (by simp; omega)]; rfl
  · rw [if_neg (by omega), if_neg (fun h' => h h'.1)]

theorem npDiag_down (M : Nat) (g : Nat → ℂ) (i j : Nat) :
    (npDiag ((List.range M).map g) (-1)).f i j = if i = j + 1 ∧ j < M then g j else 0 := by
  unfold npDiag
  simp only
  by_cases h : i = j + 1
  · subst h
    have e : (j : ℤ) - (j + 1 : Nat) = -1 := by push_cast; ring
    rw [if_pos e, Nat.min_eq_right (by omega)]
    by_cases hi : j < M
    · rw [if_pos ⟨rfl, hi⟩, List.getD_eq_getElem?_getD, List.getElem?_map, List.getElem?_range hi]; rfl
    · rw [if_neg (fun h => hi h.2), List.getD_eq_getElem?_getD, List.getElem?_eq_none (by simp; omega)]; rfl
  · rw [if_neg (by omega), if_neg (fun h' => h h'.1)]

theorem npDiag_zero (M : Nat) (g : Nat → ℂ) (i j : Nat) :
    (npDiag ((List.range M).map g) 0).f i j = if i = j ∧ i < M then g i else 0 := by
  unfold npDiag
  simp only
  by_cases h : i = j
  · subst h
    rw [if_pos (by ring), Nat.min_self]
    by_cases hi : i < M
    · rw [if_pos ⟨rfl, hi⟩, List.getD_eq_getElem?_getD, List.getElem?_map, List.getElem?_range hi]; rfl
    · rw [if_neg (fun h => hi h.2), List.getD_eq_getElem?_getD, List.getElem?_eq_none (by simp; omega)]; rfl
  · rw [if_neg (by omega), if_neg (fun h' => h h'.1)]

/-- square of the matrix element between states `i` and `i+1` of spin (N-1)/2. -/
def step (N i : Nat) : ℚ := (i + 1) * (N - 1 - i)

theorem sigmap_entry (N i j : Nat) : (sigmapMat N).f i j = if j = i + 1 ∧ i < N - 1 then root (step N i) else 0 := by
  unfold sigmapMat
  simp only
  rcases N with _ | N
  · have : arange (spinOf 0 - 1) (-(spinOf 0 + 1)) (-1) = [] := by decide +kernel
    rw [this]
    simp [npDiag]
  · rw [arange_down N _ _ (by unfold spinOf; push_cast; ring), List.map_map, npDiag_up]
    congr 1
    simp only [Function.comp, step, spinOf]
    congr 1
    push_cast
    ring

theorem sigmam_entry (N i j : Nat) : (sigmamMat N).f i j = if i = j + 1 ∧ j < N - 1 then root (step N j) else 0 := by
  unfold sigmamMat
  simp only
  rcases N with _ | N
  · have : arange (spinOf 0) (-spinOf 0) (-1) = [] := by decide +kernel
    rw [this]
    simp [npDiag]
  · rw [arange_down N _ _ (by unfold spinOf; push_cast; ring), List.map_map, npDiag_down]
    congr 1
    simp only [Function.comp, step, spinOf]
    congr 1
    push_cast
    ring

theorem sigmaz_entry (N i j : Nat) : (sigmazMat N).f i j = if i = j ∧ i < N then (((N : ℚ) - 1 - 2 * i : ℚ) : ℂ) else 0 := by
  unfold sigmazMat
  simp only
  rw [arange_down N _ _ (by unfold spinOf; ring), List.map_map, npDiag_zero]
  congr 1
  simp only [Function.comp, spinOf]
  congr 1
  ring

theorem sigmax_entry (N i j : Nat) : (sigmaxMat N).f i j = (sigmapMat N).f i j + (sigmamMat N).f i j := by
  rw [sigmap_entry, sigmam_entry]
  unfold sigmaxMat plus
  simp only
  rw [arange_up, List.map_map, npDiag_up, npDiag_down]
  simp only [Function.comp, step, spinOf]
  congr 2
  · congr 1; ring
  · congr 1; ring

theorem sigmay_entry (N i j : Nat) :
    (sigmayMat N).f i j = Complex.I * (sigmamMat N).f i j - Complex.I * (sigmapMat N).f i j := by
  rw [sigmap_entry, sigmam_entry]
  unfold sigmayMat plus
  simp only
  rw [arange_up, List.map_map, List.map_map, npDiag_up, npDiag_down]
  simp only [Function.comp, step, spinOf]
  have e : ∀ k : Nat, (((N : ℚ) - 1) / 2 + 1) * 2 * (1 + k) - (1 + k) * (1 + k + 1) = (k + 1) * (N - 1 - k) := fun k => by ring
  simp only [e]
  split <;> split <;> ring

/-! ## C91: spin operators -/

/-- the local matrix as a square matrix. -/
def toM (N : Nat) (m : Mat ℂ) : Matrix (Fin N) (Fin N) ℂ := Matrix.of fun i j => m.f i j

/-- C91: the matrices have the dimension of the site. -/
theorem C91_dimension (N : Nat) (h : 0 < N) :
    (sigmaxMat N).n = N ∧ (sigmayMat N).n = N ∧ (sigmazMat N).n = N ∧ (sigmamMat N).n = N ∧ (sigmapMat N).n = N := by
  obtain ⟨M, rfl⟩ : ∃ M, N = M + 1 := ⟨N - 1, by omega⟩
  refine ⟨?_, ?_, ?_, ?_, ?_⟩
  · simp only [sigmaxMat, plus, npDiag]
    rw [arange_up]
    simp
  · simp only [sigmayMat, plus, npDiag]
    rw [arange_up]
    simp
  · simp only [sigmazMat]
    rw [arange_down (M + 1) _ _ (by unfold spinOf; push_cast; ring)]
    simp [npDiag]
  · simp only [sigmamMat]
    rw [arange_down M _ _ (by unfold spinOf; push_cast; ring)]
    simp [npDiag]
  · simp only [sigmapMat]
    rw [arange_down M _ _ (by unfold spinOf; push_cast; ring)]
    simp [npDiag]

example := C91_dimension 3 (by decide)

theorem root_sq (q : ℚ) (h : 0 ≤ q) : root q * root q = (q : ℂ) := by
  unfold root
  rw [← Complex.ofReal_mul, Real.mul_self_sqrt (by exact_mod_cast h)]
  norm_cast

theorem step_nonneg (N i : Nat) (h : i < N) : 0 ≤ step N i := by
  unfold step
  have : (i : ℚ) + 1 ≤ N := by exact_mod_cast h
  apply mul_nonneg
  · positivity
  · linarith

theorem pm_mul (N : Nat) (i j : Fin N) :
    (toM N (sigmapMat N) * toM N (sigmamMat N)) i j = if i = j then ((step N i : ℚ) : ℂ) else 0 := by
  rw [Matrix.mul_apply]
  simp only [toM, Matrix.of_apply, sigmap_entry, sigmam_entry]
  by_cases hi : i.val < N - 1
  · rw [Finset.sum_eq_single (⟨i.val + 1, by omega⟩ : Fin N)]
    · rw [if_pos ⟨rfl, hi⟩]
      by_cases h : i = j
      · subst h
        rw [if_pos ⟨rfl, hi⟩, if_pos rfl, root_sq _ (step_nonneg _ _ i.2)]
      · rw [if_neg h, if_neg, mul_zero]
        rintro ⟨h1, _⟩
        apply h
        ext
        simp at h1
        exact h1
    · intro k _ hk
      rw [if_neg, zero_mul]
      rintro ⟨h1, _⟩
      exact hk (Fin.ext h1)
    · intro h; simp at h
  · have hs : step N i = 0 := by
      unfold step
      have : N = i.val + 1 := by omega
      have : (N : ℚ) = i.val + 1 := by exact_mod_cast this
      rw [this]; ring
    rw [Finset.sum_eq_zero, hs]
    · simp
    · intro k _
      rw [if_neg (fun h => hi h.2), zero_mul]

theorem mp_mul (N : Nat) (i j : Fin N) :
    (toM N (sigmamMat N) * toM N (sigmapMat N)) i j = if i = j then (((i : ℚ) * (N - i) : ℚ) : ℂ) else 0 := by
  rw [Matrix.mul_apply]
  simp only [toM, Matrix.of_apply, sigmap_entry, sigmam_entry]
  rcases Nat.eq_zero_or_pos i.val with h0 | hpos
  · rw [Finset.sum_eq_zero]
    · rw [h0]; simp
    · intro k _
      rw [if_neg (by omega), zero_mul]
  · rw [Finset.sum_eq_single (⟨i.val - 1, by omega⟩ : Fin N)]
    · have e1 : i.val = i.val - 1 + 1 ∧ i.val - 1 < N - 1 := by omega
      rw [if_pos e1]
      by_cases h : i = j
      · subst h
        rw [if_pos e1, if_pos rfl, root_sq _ (step_nonneg _ _ (by omega))]
        congr 1
        unfold step
        have : ((i.val - 1 : Nat) : ℚ) = (i.val : ℚ) - 1 := by
          rw [Nat.cast_sub hpos]; simp
        simp only
        rw [this]; ring
      · rw [if_neg h, if_neg, mul_zero]
        rintro ⟨h1, _⟩
        apply h
        ext
        simp at h1
        omega
    · intro k _ hk
      rw [if_neg, zero_mul]
      rintro ⟨h1, _⟩
      apply hk
      ext
      simp
      omega
    · intro h; simp at h

theorem toM_x (N : Nat) : toM N (sigmaxMat N) = toM N (sigmapMat N) + toM N (sigmamMat N) := by
  ext i j
  simp [toM, sigmax_entry]

theorem toM_y (N : Nat) : toM N (sigmayMat N) = Complex.I • (toM N (sigmamMat N) - toM N (sigmapMat N)) := by
  ext i j
  simp [toM, sigmay_entry, mul_sub]

theorem toM_z (N : Nat) : toM N (sigmazMat N) = toM N (sigmapMat N) * toM N (sigmamMat N) - toM N (sigmamMat N) * toM N (sigmapMat N) := by
  ext i j
  rw [Matrix.sub_apply, pm_mul, mp_mul]
  simp only [toM, Matrix.of_apply, sigmaz_entry]
  by_cases h : i = j
  · subst h
    rw [if_pos ⟨rfl, i.2⟩, if_pos rfl, if_pos rfl, ← Rat.cast_sub]
    congr 1
    unfold step
    ring
  · rw [if_neg h, if_neg h, if_neg (fun h' => h (Fin.ext h'.1)), sub_zero]

theorem zp_mul (N : Nat) : toM N (sigmazMat N) * toM N (sigmapMat N) - toM N (sigmapMat N) * toM N (sigmazMat N) = (2 : ℂ) • toM N (sigmapMat N) := by
  have hz : toM N (sigmazMat N) = Matrix.diagonal fun i : Fin N => (((N : ℚ) - 1 - 2 * (i.val : ℚ) : ℚ) : ℂ) := by
    ext i j
    simp only [toM, Matrix.of_apply, sigmaz_entry, Matrix.diagonal_apply]
    by_cases h : i = j
    · subst h; rw [if_pos ⟨rfl, i.2⟩, if_pos rfl]
    · rw [if_neg h, if_neg (fun h' => h (Fin.ext h'.1))]
  ext i j
  rw [hz, Matrix.sub_apply, Matrix.diagonal_mul, Matrix.mul_diagonal, Matrix.smul_apply]
  simp only [toM, Matrix.of_apply, sigmap_entry, smul_eq_mul]
  split
  · rename_i h
    rw [h.1]
    push_cast
    ring
  · ring

theorem zm_mul (N : Nat) : toM N (sigmazMat N) * toM N (sigmamMat N) - toM N (sigmamMat N) * toM N (sigmazMat N) = (-2 : ℂ) • toM N (sigmamMat N) := by
  have hz : toM N (sigmazMat N) = Matrix.diagonal fun i : Fin N => (((N : ℚ) - 1 - 2 * (i.val : ℚ) : ℚ) : ℂ) := by
    ext i j
    simp only [toM, Matrix.of_apply, sigmaz_entry, Matrix.diagonal_apply]
    by_cases h : i = j
    · subst h; rw [if_pos ⟨rfl, i.2⟩, if_pos rfl]
    · rw [if_neg h, if_neg (fun h' => h (Fin.ext h'.1))]
  ext i j
  rw [hz, Matrix.sub_apply, Matrix.diagonal_mul, Matrix.mul_diagonal, Matrix.smul_apply]
  simp only [toM, Matrix.of_apply, sigmam_entry, smul_eq_mul]
  split
  · rename_i h
    rw [h.1]
    push_cast
    ring
  · ring

/-- C91: the three components obey the algebra of angular momentum (twice the spin), for every local dimension. -/
theorem C91_commutators (N : Nat) :
    let X := toM N (sigmaxMat N)
    let Y := toM N (sigmayMat N)
    let Z := toM N (sigmazMat N)
    X * Y - Y * X = (2 * Complex.I) • Z ∧ Y * Z - Z * Y = (2 * Complex.I) • X ∧ Z * X - X * Z = (2 * Complex.I) • Y := by
  intro X Y Z
  have hx : X = _ := toM_x N
  have hy : Y = _ := toM_y N
  have hz : Z = _ := toM_z N
  have h1 := zp_mul N
  have h2 := zm_mul N
  have hZ : toM N (sigmazMat N) = Z := rfl
  rw [hZ] at h1 h2
  generalize toM N (sigmapMat N) = P at *
  generalize toM N (sigmamMat N) = M at *
  have e1 : Z * P = P * Z + (2 : ℂ) • P := by rw [← h1]; abel
  have e2 : Z * M = M * Z + (-2 : ℂ) • M := by rw [← h2]; abel
  refine ⟨?_, ?_, ?_⟩
  · rw [hx, hy, hz]
    simp only [Matrix.mul_smul, Matrix.smul_mul, Matrix.mul_sub, Matrix.sub_mul, Matrix.mul_add, Matrix.add_mul]
    module
  · rw [hx, hy]
    simp only [Matrix.mul_smul, Matrix.smul_mul, Matrix.mul_sub, Matrix.sub_mul, Matrix.mul_add, Matrix.add_mul, e1, e2]
    module
  · rw [hx, hy]
    simp only [Matrix.mul_smul, Matrix.smul_mul, Matrix.mul_sub, Matrix.sub_mul, Matrix.mul_add, Matrix.add_mul, e1, e2]
    rw [smul_smul, mul_assoc, Complex.I_mul_I]
    module

/-- C91: the sum of the squares is 4 S (S+1) with S = (N-1)/2. -/
theorem C91_casimir (N : Nat) :
    toM N (sigmaxMat N) * toM N (sigmaxMat N) + toM N (sigmayMat N) * toM N (sigmayMat N) + toM N (sigmazMat N) * toM N (sigmazMat N)
      = ((4 * (((N : ℚ) - 1) / 2) * (((N : ℚ) - 1) / 2 + 1) : ℚ) : ℂ) • (1 : Matrix (Fin N) (Fin N) ℂ) := by
  have hz : toM N (sigmazMat N) = Matrix.diagonal fun i : Fin N => (((N : ℚ) - 1 - 2 * (i.val : ℚ) : ℚ) : ℂ) := by
    ext i j
    simp only [toM, Matrix.of_apply, sigmaz_entry, Matrix.diagonal_apply]
    by_cases h : i = j
    · subst h; rw [if_pos ⟨rfl, i.2⟩, if_pos rfl]
    · rw [if_neg h, if_neg (fun h' => h (Fin.ext h'.1))]
  have hxy : toM N (sigmaxMat N) * toM N (sigmaxMat N) + toM N (sigmayMat N) * toM N (sigmayMat N)
      = (2 : ℂ) • (toM N (sigmapMat N) * toM N (sigmamMat N) + toM N (sigmamMat N) * toM N (sigmapMat N)) := by
    rw [toM_x, toM_y]
    generalize toM N (sigmapMat N) = P
    generalize toM N (sigmamMat N) = M
    simp only [Matrix.mul_smul, Matrix.smul_mul, Matrix.mul_sub, Matrix.sub_mul, Matrix.mul_add, Matrix.add_mul, smul_smul,
      Complex.I_mul_I, smul_sub]
    module
  rw [hxy]
  ext i j
  rw [Matrix.add_apply, Matrix.smul_apply, Matrix.add_apply, pm_mul, mp_mul, hz, Matrix.diagonal_mul_diagonal, Matrix.diagonal_apply,
    Matrix.smul_apply, Matrix.one_apply]
  by_cases h : i = j
  · subst h
    simp only [if_true, smul_eq_mul, step]
    push_cast
    ring
  · simp [h]

theorem star_root (q : ℚ) : star (root q) = root q := by
  unfold root
  exact Complex.conj_ofReal _

/-- C91: sigmax, sigmay and sigmaz are hermitian; sigmap and sigmam are adjoint to each other. -/
theorem C91_hermitian (N : Nat) :
    (toM N (sigmaxMat N)).IsHermitian ∧ (toM N (sigmayMat N)).IsHermitian ∧ (toM N (sigmazMat N)).IsHermitian
      ∧ (toM N (sigmapMat N)).conjTranspose = toM N (sigmamMat N) := by
  have hp : (toM N (sigmapMat N)).conjTranspose = toM N (sigmamMat N) := by
    ext i j
    rw [Matrix.conjTranspose_apply]
    simp only [toM, Matrix.of_apply, sigmap_entry, sigmam_entry]
    rw [apply_ite star, star_root, star_zero]
  have hm : (toM N (sigmamMat N)).conjTranspose = toM N (sigmapMat N) := by
    rw [← hp, Matrix.conjTranspose_conjTranspose]
  refine ⟨?_, ?_, ?_, hp⟩
  · unfold Matrix.IsHermitian
    rw [toM_x, Matrix.conjTranspose_add, hp, hm, add_comm]
  · unfold Matrix.IsHermitian
    rw [toM_y, Matrix.conjTranspose_smul, Matrix.conjTranspose_sub, hp, hm]
    have : star Complex.I = -Complex.I := Complex.conj_I
    rw [this]
    module
  · unfold Matrix.IsHermitian
    rw [toM_z, Matrix.conjTranspose_sub, Matrix.conjTranspose_mul, Matrix.conjTranspose_mul, hp, hm]

/-- C91: for two local states these are the Pauli matrices. -/
theorem C91_pauli :
    toM 2 (sigmaxMat 2) = !![0, 1; 1, 0] ∧ toM 2 (sigmayMat 2) = !![0, -Complex.I; Complex.I, 0] ∧ toM 2 (sigmazMat 2) = !![1, 0; 0, -1]
      ∧ toM 2 (sigmapMat 2) = !![0, 1; 0, 0] ∧ toM 2 (sigmamMat 2) = !![0, 0; 1, 0] := by
  have hr : root (step 2 0) = 1 := by
    have : step 2 0 = 1 := by norm_num [step]
    rw [this]
    simp [root]
  have hp : toM 2 (sigmapMat 2) = !![0, 1; 0, 0] := by
    ext i j
    fin_cases i <;> fin_cases j <;> simp [toM, sigmap_entry, hr]
  have hm : toM 2 (sigmamMat 2) = !![0, 0; 1, 0] := by
    ext i j
    fin_cases i <;> fin_cases j <;> simp [toM, sigmam_entry, hr]
  refine ⟨?_, ?_, ?_, hp, hm⟩
  · rw [toM_x, hp, hm]
    ext i j
    fin_cases i <;> fin_cases j <;> simp
  · rw [toM_y, hp, hm]
    ext i j
    fin_cases i <;> fin_cases j <;> simp
  · ext i j
    fin_cases i <;> fin_cases j <;> simp [toM, sigmaz_entry] <;> norm_num

/-- C129: the ladder operators are half of what is documented: σ± = (σx ± i σy)/2. -/
theorem C129_ladder_partial (N : Nat) :
    toM N (sigmapMat N) = (1 / 2 : ℂ) • (toM N (sigmaxMat N) + Complex.I • toM N (sigmayMat N))
    ∧ toM N (sigmamMat N) = (1 / 2 : ℂ) • (toM N (sigmaxMat N) - Complex.I • toM N (sigmayMat N)) := by
  rw [toM_x, toM_y, smul_smul, Complex.I_mul_I]
  constructor <;> module

/-- C129: refuted: "σ⁻ = σx - i σy" and "σ⁺ = σx + i σy", as documented, hold for no space with more than one local state. -/
theorem C129_ladder_refuted (N : Nat) (h : 2 ≤ N) :
    toM N (sigmapMat N) ≠ toM N (sigmaxMat N) + Complex.I • toM N (sigmayMat N)
    ∧ toM N (sigmamMat N) ≠ toM N (sigmaxMat N) - Complex.I • toM N (sigmayMat N) := by
  have hs : root (step N 0) ≠ 0 := by
    have : (0 : ℝ) < ((step N 0 : ℚ) : ℝ) := by
      have h2 : (2 : ℚ) ≤ N := by exact_mod_cast h
      have : 0 < step N 0 := by
        unfold step
        simp
        linarith
      exact_mod_cast this
    unfold root
    exact_mod_cast (Real.sqrt_pos.2 this).ne'
  obtain ⟨h1, h2⟩ := C129_ladder_partial N
  constructor
  · intro hc
    rw [← hc] at h1
    have := congrFun (congrFun h1 ⟨0, by omega⟩) ⟨1, by omega⟩
    simp only [toM, Matrix.of_apply, Matrix.smul_apply, sigmap_entry, smul_eq_mul] at this
    rw [if_pos ⟨by simp, by omega⟩] at this
    apply hs
    linear_combination 2 * this
  · intro hc
    rw [← hc] at h2
    have := congrFun (congrFun h2 ⟨1, by omega⟩) ⟨0, by omega⟩
    simp only [toM, Matrix.of_apply, Matrix.smul_apply, sigmam_entry, smul_eq_mul] at this
    rw [if_pos ⟨by simp, by omega⟩] at this
    apply hs
    linear_combination 2 * this

example := C129_ladder_refuted 3 (by decide)

/-! ### Action on configurations -/

/-- C91, C92: the operator on site `s` with a matrix of the right dimension has the connected elements of that matrix in the local states. -/
theorem C91_get_conn {n : Nat} {cut : Cutoff ℂ} {hi : Fin n → List ℤ} (hid : Ideal cut) (hs : SortedSpace hi) (mat : Nat → Mat ℂ) (s : Fin n)
    (hm : (mat (hi s).length).n = (hi s).length) :
    ∃ op, onSite cut hi mat s = .ok op ∧ ∀ (gm : Nat → ℂ) (gx : Nat → Fin n → ℤ) (x x' : Fin n → ℤ), Valid hi x → Valid hi x' →
      melAt (getConn hi op gm gx x) x'
        = if ∀ t, t ≠ s → x t = x' t then (mat (hi s).length).f ((hi s).idxOf (x s)) ((hi s).idxOf (x' s)) else 0 := by
  have ha : ArgsOK hi [(mat (hi s).length, [s])] := by
    intro p hp
    rw [List.mem_singleton] at hp
    subst hp
    exact ⟨by simp, by simp, by simp [dims, hm], Or.inl (by simp)⟩
  obtain ⟨op, h1, h2⟩ := C10_get_conn_user_terms hid hs (0 : ℂ) _ ha
  refine ⟨op, h1, fun gm gx x x' hx hx' => ?_⟩
  rw [h2 gm gx x x' hx hx']
  simp [matrixOfList, embed, lexIdx, Verif.Radix.enc]

theorem spinStates_sorted (twoS : Nat) : (spinStates twoS).Pairwise (· < ·) := by
  unfold spinStates
  rw [List.pairwise_map]
  exact List.pairwise_lt_range.imp fun h => by omega

theorem spinStates_idxOf (twoS i : Nat) (h : i ≤ twoS) : (spinStates twoS).idxOf (-(twoS : ℤ) + 2 * i) = i := by
  have hl : i < (spinStates twoS).length := by simp [spinStates]; omega
  have he : (spinStates twoS)[i] = -(twoS : ℤ) + 2 * i := by simp [spinStates]
  rw [← he]
  exact List.Nodup.idxOf_getElem ((spinStates_sorted twoS).imp fun h => h.ne) i hl

theorem spinStates_mem (twoS : Nat) (m : ℤ) : m ∈ spinStates twoS ↔ ∃ i : Nat, i ≤ twoS ∧ m = -(twoS : ℤ) + 2 * i := by
  simp [spinStates, Nat.lt_succ_iff, eq_comm]

theorem fockStates_sorted (nMax : Nat) : (fockStates nMax).Pairwise (· < ·) := by
  unfold fockStates
  rw [List.pairwise_map]
  exact List.pairwise_lt_range.imp fun h => by omega

theorem fockStates_idxOf (nMax i : Nat) (h : i ≤ nMax) : (fockStates nMax).idxOf (i : ℤ) = i := by
  have hl : i < (fockStates nMax).length := by simp [fockStates]; omega
  have he : (fockStates nMax)[i] = (i : ℤ) := by simp [fockStates]
  rw [← he]
  exact List.Nodup.idxOf_getElem ((fockStates_sorted nMax).imp fun h => h.ne) i hl

theorem fockStates_mem (nMax : Nat) (m : ℤ) : m ∈ fockStates nMax ↔ ∃ i : Nat, i ≤ nMax ∧ m = (i : ℤ) := by
  simp [fockStates, Nat.lt_succ_iff, eq_comm]

theorem agree_iff {n : Nat} (s : Fin n) (x x' : Fin n → ℤ) : ((∀ t, t ≠ s → x t = x' t) ∧ x s = x' s) ↔ x = x' := by
  constructor
  · rintro ⟨h1, h2⟩
    funext t
    by_cases h : t = s
    · rw [h, h2]
    · exact h1 t h
  · rintro rfl
    exact ⟨fun _ _ => rfl, rfl⟩

/-- C129: on `Spin(s)` sigmaz multiplies a configuration by minus its quantum number. -/
theorem C129_sigmaz_partial {n : Nat} {cut : Cutoff ℂ} (hid : Ideal cut) (twoS : Nat) (s : Fin n) :
    ∃ op, onSite cut (fun _ => spinStates twoS) sigmazMat s = .ok op
      ∧ ∀ (gm : Nat → ℂ) (gx : Nat → Fin n → ℤ) (x x' : Fin n → ℤ), Valid (fun _ => spinStates twoS) x → Valid (fun _ => spinStates twoS) x' →
        melAt (getConn (fun _ => spinStates twoS) op gm gx x) x' = if x = x' then -((x s : ℤ) : ℂ) else 0 := by
  have hlen : (spinStates twoS).length = twoS + 1 := by simp [spinStates]
  obtain ⟨op, h1, h2⟩ := C91_get_conn (hi := fun _ : Fin n => spinStates twoS) hid (fun _ => spinStates_sorted twoS) sigmazMat s
    (C91_dimension _ (by rw [hlen]; omega)).2.2.1
  refine ⟨op, h1, fun gm gx x x' hx hx' => ?_⟩
  rw [h2 gm gx x x' hx hx']
  obtain ⟨i, hi, ei⟩ := (spinStates_mem _ _).1 (hx s)
  obtain ⟨j, hj, ej⟩ := (spinStates_mem _ _).1 (hx' s)
  rw [ei, ej, spinStates_idxOf _ _ hi, spinStates_idxOf _ _ hj, sigmaz_entry, hlen]
  by_cases h : x = x'
  · subst h
    have : i = j := by omega
    subst this
    rw [if_pos (fun _ _ => rfl), if_pos ⟨rfl, by omega⟩, if_pos rfl]
    push_cast
    ring
  · rw [if_neg h]
    split
    · rename_i ha
      rw [if_neg]
      rintro ⟨hij, _⟩
      apply h
      rw [← agree_iff s]
      exact ⟨ha, by rw [ei, ej, hij]⟩
    · rfl

/-- C129: refuted: sigmaz does not multiply a configuration by its quantum number. -/
theorem C129_sigmaz_refuted {cut : Cutoff ℂ} (hid : Ideal cut) (twoS n : Nat) (hS : 0 < twoS) (s : Fin n) :
    ∃ op, onSite cut (fun _ => spinStates twoS) sigmazMat s = .ok op ∧ ∃ x, Valid (fun _ => spinStates twoS) x
      ∧ ∀ (gm : Nat → ℂ) (gx : Nat → Fin n → ℤ), melAt (getConn (fun _ => spinStates twoS) op gm gx x) x ≠ ((x s : ℤ) : ℂ) := by
  obtain ⟨op, h1, h2⟩ := C129_sigmaz_partial hid twoS s
  have hv : Valid (fun _ : Fin n => spinStates twoS) fun _ => (twoS : ℤ) := fun t => (spinStates_mem _ _).2 ⟨twoS, le_refl _, by ring⟩
  refine ⟨op, h1, fun _ => twoS, hv, fun gm gx => ?_⟩
  rw [h2 gm gx _ _ hv hv, if_pos rfl]
  intro h
  have h' : ((2 * (twoS : ℤ) : ℤ) : ℂ) = 0 := by
    push_cast at h ⊢
    linear_combination -h
  rw [Int.cast_eq_zero] at h'
  omega

/-- C129: the configurations of `Spin(s, N, total_sz=m)` are eigenstates of the sum of all sigmaz, with eigenvalue -2m. -/
theorem C129_total_sz_partial {n : Nat} {cut : Cutoff ℂ} (hid : Ideal cut) (twoS : Nat) (twoSz : ℤ) :
    ∃ ops : Fin n → LOp ℂ ℤ n, (∀ s, onSite cut (fun _ => spinStates twoS) sigmazMat s = .ok (ops s))
      ∧ ∀ (gm : Nat → ℂ) (gx : Nat → Fin n → ℤ) (x x' : Fin n → ℤ), Valid (fun _ => spinStates twoS) x → Valid (fun _ => spinStates twoS) x' →
        sumConstraint twoSz x = true →
        ∑ s, melAt (getConn (fun _ => spinStates twoS) (ops s) gm gx x) x' = if x = x' then -(twoSz : ℂ) else 0 := by
  choose ops h1 h2 using fun s : Fin n => C129_sigmaz_partial hid twoS s
  refine ⟨ops, h1, fun gm gx x x' hx hx' hc => ?_⟩
  have hsum : ∑ s, x s = twoSz := by simpa [sumConstraint] using hc
  rw [Finset.sum_congr rfl fun s _ => h2 s gm gx x x' hx hx']
  by_cases h : x = x'
  · simp only [if_pos h]
    rw [← hsum]
    push_cast
    rw [Finset.sum_neg_distrib]
  · simp only [if_neg h]
    simp

/-- C129: refuted: with `total_sz` the sum of all sigmaz / 2 is not `total_sz`: for every nonzero value that occurs it has the opposite sign. -/
theorem C129_total_sz_refuted {n : Nat} {cut : Cutoff ℂ} (hid : Ideal cut) (twoS : Nat) (twoSz : ℤ) (hz : twoSz ≠ 0) (x : Fin n → ℤ)
    (hx : Valid (fun _ => spinStates twoS) x) (hc : sumConstraint twoSz x = true) :
    ∃ ops : Fin n → LOp ℂ ℤ n, (∀ s, onSite cut (fun _ => spinStates twoS) sigmazMat s = .ok (ops s))
      ∧ ∀ (gm : Nat → ℂ) (gx : Nat → Fin n → ℤ), ∑ s, melAt (getConn (fun _ => spinStates twoS) (ops s) gm gx x) x ≠ (twoSz : ℂ) := by
  obtain ⟨ops, h1, h2⟩ := C129_total_sz_partial (n := n) hid twoS twoSz
  refine ⟨ops, h1, fun gm gx h => ?_⟩
  rw [h2 gm gx x x hx hx hc, if_pos rfl] at h
  have h' : ((2 * twoSz : ℤ) : ℂ) = 0 := by
    push_cast
    linear_combination -h
  rw [Int.cast_eq_zero] at h'
  omega

/-- C129: on `Spin(s)`, `⟨x|σ⁺|x'⟩` is nonzero only if the quantum number of x is that of x' lowered by two, and
    `⟨x|σ⁻|x'⟩` only if it is raised by two. -/
theorem C129_ladder_direction_partial {n : Nat} {cut : Cutoff ℂ} (hid : Ideal cut) (twoS : Nat) (s : Fin n) :
    ∃ p m, onSite cut (fun _ => spinStates twoS) sigmapMat s = .ok p ∧ onSite cut (fun _ => spinStates twoS) sigmamMat s = .ok m
      ∧ ∀ (gm : Nat → ℂ) (gx : Nat → Fin n → ℤ) (x x' : Fin n → ℤ), Valid (fun _ => spinStates twoS) x → Valid (fun _ => spinStates twoS) x' →
        (melAt (getConn (fun _ => spinStates twoS) p gm gx x) x' ≠ 0 ↔ (∀ t, t ≠ s → x t = x' t) ∧ x s = x' s - 2)
        ∧ (melAt (getConn (fun _ => spinStates twoS) m gm gx x) x' ≠ 0 ↔ (∀ t, t ≠ s → x t = x' t) ∧ x s = x' s + 2) := by
  have hlen : (spinStates twoS).length = twoS + 1 := by simp [spinStates]
  obtain ⟨p, h1, h2⟩ := C91_get_conn (hi := fun _ : Fin n => spinStates twoS) hid (fun _ => spinStates_sorted twoS) sigmapMat s
    (C91_dimension _ (by rw [hlen]; omega)).2.2.2.2
  obtain ⟨m, h3, h4⟩ := C91_get_conn (hi := fun _ : Fin n => spinStates twoS) hid (fun _ => spinStates_sorted twoS) sigmamMat s
    (C91_dimension _ (by rw [hlen]; omega)).2.2.2.1
  refine ⟨p, m, h1, h3, fun gm gx x x' hx hx' => ?_⟩
  rw [h2 gm gx x x' hx hx', h4 gm gx x x' hx hx']
  obtain ⟨i, hi, ei⟩ := (spinStates_mem _ _).1 (hx s)
  obtain ⟨j, hj, ej⟩ := (spinStates_mem _ _).1 (hx' s)
  rw [ei, ej, spinStates_idxOf _ _ hi, spinStates_idxOf _ _ hj, sigmap_entry, sigmam_entry, hlen]
  have hr : ∀ k : Nat, k < twoS → root (step (twoS + 1) k) ≠ 0 := by
    intro k hk
    have hk' : (k : ℚ) + 1 ≤ twoS := by exact_mod_cast hk
    have : 0 < step (twoS + 1) k := by
      unfold step
      push_cast
      apply mul_pos
      · positivity
      · linarith
    have : (0 : ℝ) < ((step (twoS + 1) k : ℚ) : ℝ) := by exact_mod_cast this
    unfold root
    exact_mod_cast (Real.sqrt_pos.2 this).ne'
  constructor
  · by_cases ha : ∀ t, t ≠ s → x t = x' t
    · rw [if_pos ha]
      by_cases hj' : j = i + 1
      · rw [if_pos ⟨hj', by omega⟩]
        exact ⟨fun _ => ⟨ha, by omega⟩, fun _ => hr i (by omega)⟩
      · rw [if_neg (fun h => hj' h.1)]
        refine ⟨fun h => absurd rfl h, fun h => ?_⟩
        exact absurd h.2 (by omega)
    · rw [if_neg ha]
      exact ⟨fun h => absurd rfl h, fun h => absurd h.1 ha⟩
  · by_cases ha : ∀ t, t ≠ s → x t = x' t
    · rw [if_pos ha]
      by_cases hj' : i = j + 1
      · rw [if_pos ⟨hj', by omega⟩]
        exact ⟨fun _ => ⟨ha, by omega⟩, fun _ => hr j (by omega)⟩
      · rw [if_neg (fun h => hj' h.1)]
        refine ⟨fun h => absurd rfl h, fun h => ?_⟩
        exact absurd h.2 (by omega)
    · rw [if_neg ha]
      exact ⟨fun h => absurd rfl h, fun h => absurd h.1 ha⟩

/-! ## C92: boson operators -/

theorem destroy_entry (N i j : Nat) : (destroyMat N).f i j = if j = i + 1 ∧ i < N - 1 then root ((i : ℚ) + 1) else 0 := by
  unfold destroyMat
  rw [arange_up, List.map_map, npDiag_up]
  simp only [Function.comp, add_comm (1 : ℚ)]

theorem create_entry (N i j : Nat) : (createMat N).f i j = if i = j + 1 ∧ j < N - 1 then root ((j : ℚ) + 1) else 0 := by
  unfold createMat
  rw [arange_up, List.map_map, npDiag_down]
  simp only [Function.comp, add_comm (1 : ℚ)]

theorem number_entry (N i j : Nat) : (numberMat N).f i j = if i = j ∧ i < N then (i : ℂ) else 0 := by
  unfold numberMat
  rw [arange_zero, List.map_map, npDiag_zero]
  simp [Function.comp]

/-- C92: the matrices have the dimension of the site. -/
theorem C92_dimension (N : Nat) (h : 0 < N) : (destroyMat N).n = N ∧ (createMat N).n = N ∧ (numberMat N).n = N := by
  obtain ⟨M, rfl⟩ : ∃ M, N = M + 1 := ⟨N - 1, by omega⟩
  refine ⟨?_, ?_, ?_⟩
  · simp only [destroyMat, npDiag]; rw [arange_up]; simp
  · simp only [createMat, npDiag]; rw [arange_up]; simp
  · simp only [numberMat, npDiag]; rw [arange_zero]; simp

example := C92_dimension 3 (by decide)

/-- C92: `create` is the adjoint of `destroy`. -/
theorem C92_adjoint (N : Nat) : (toM N (destroyMat N)).conjTranspose = toM N (createMat N) := by
  ext i j
  rw [Matrix.conjTranspose_apply]
  simp only [toM, Matrix.of_apply, destroy_entry, create_entry]
  rw [apply_ite star, star_root, star_zero]

/-- C92: `number` is `create` times `destroy`. -/
theorem C92_number (N : Nat) : toM N (createMat N) * toM N (destroyMat N) = toM N (numberMat N) := by
  ext i j
  rw [Matrix.mul_apply]
  simp only [toM, Matrix.of_apply, destroy_entry, create_entry, number_entry]
  rcases Nat.eq_zero_or_pos i.val with h0 | hpos
  · rw [Finset.sum_eq_zero]
    · rw [h0]; simp
    · intro k _
      rw [if_neg (by omega), zero_mul]
  · rw [Finset.sum_eq_single (⟨i.val - 1, by omega⟩ : Fin N)]
    · have e1 : i.val = i.val - 1 + 1 ∧ i.val - 1 < N - 1 := by omega
      rw [if_pos e1]
      by_cases h : i = j
      · subst h
        rw [if_pos e1, if_pos ⟨rfl, i.2⟩, root_sq _ (by positivity)]
        simp only
        rw [Nat.cast_sub hpos]
        simp
      · have hij : i.val ≠ j.val := fun h' => h (Fin.ext h')
        have e2 : ¬ (j.val = i.val - 1 + 1 ∧ i.val - 1 < N - 1) := by omega
        rw [if_neg e2, if_neg (fun h' => hij h'.1), mul_zero]
    · intro k _ hk
      rw [if_neg, zero_mul]
      rintro ⟨h1, _⟩
      apply hk
      ext
      simp
      omega
    · intro h; simp at h

/-- C92: `destroy` times `create` is `number` plus one, except on the highest state, which it sends to zero (the cut-off). -/
theorem C92_commutator (N : Nat) (i j : Fin N) :
    (toM N (destroyMat N) * toM N (createMat N)) i j = if i = j ∧ i.val + 1 < N then (i.val : ℂ) + 1 else 0 := by
  rw [Matrix.mul_apply]
  simp only [toM, Matrix.of_apply, destroy_entry, create_entry]
  by_cases hi : i.val < N - 1
  · rw [Finset.sum_eq_single (⟨i.val + 1, by omega⟩ : Fin N)]
    · rw [if_pos ⟨rfl, hi⟩]
      by_cases h : i = j
      · subst h
        rw [if_pos ⟨rfl, hi⟩, if_pos ⟨rfl, by omega⟩, root_sq _ (by positivity)]
        push_cast
        rfl
      · have hij : i.val ≠ j.val := fun h' => h (Fin.ext h')
        have e2 : ¬ (i.val + 1 = j.val + 1 ∧ j.val < N - 1) := by omega
        rw [if_neg e2, if_neg (fun h' => h h'.1), mul_zero]
    · intro k _ hk
      rw [if_neg, zero_mul]
      rintro ⟨h1, _⟩
      exact hk (Fin.ext h1)
    · intro h; simp at h
  · rw [Finset.sum_eq_zero]
    · rw [if_neg (by omega)]
    · intro k _
      rw [if_neg (fun h => hi h.2), zero_mul]

theorem proj_entry (N k i j : Nat) :
    (npDiag ((List.replicate N 0).set k 1) 0).f i j = if i = j ∧ i = k ∧ k < N then 1 else 0 := by
  unfold npDiag
  simp only
  by_cases h : i = j
  · subst h
    rw [if_pos (by ring), Nat.min_self, List.getD_eq_getElem?_getD, List.getElem?_set]
    by_cases hk : k = i
    · subst hk
      rw [if_pos rfl]
      by_cases hl : k < N
      · simp [hl]
      · simp [hl]
    · rw [if_neg hk, if_neg (fun h' => hk h'.2.1.symm), List.getElem?_replicate]
      split <;> rfl
  · rw [if_neg (by omega), if_neg (fun h' => h h'.1)]

/-- C92: for a state below the cut-off `proj` is the projector on it. -/
theorem C92_proj (N n : Nat) (h : n < N) :
    ∃ m, projMat N n = .ok m ∧ m.n = N ∧ toM N m = Matrix.single ⟨n, h⟩ ⟨n, h⟩ 1 := by
  refine ⟨npDiag ((List.replicate N 0).set n 1) 0, ?_, ?_, ?_⟩
  · unfold projMat
    rw [if_neg (by omega), if_pos (by omega), Int.toNat_natCast]
  · simp [npDiag]
  · ext i j
    simp only [toM, Matrix.of_apply, proj_entry, Matrix.single_apply, Fin.ext_iff]
    congr 1
    simp only [eq_iff_iff]
    omega

example := C92_proj 3 1 (by decide)

/-- C92: states above the cut-off are rejected. -/
theorem C92_proj_error (N : Nat) (n : ℤ) (h : (N : ℤ) ≤ n) : projMat N n = .error .valueError := if_pos h

example := C92_proj_error 3 4 (by decide)

/-- C92: as are numbers below -N, with an IndexError. -/
theorem C92_proj_index_error (N : Nat) (n : ℤ) (h : n < -(N : ℤ)) : projMat N n = .error .indexError := by
  unfold projMat
  rw [if_neg (by omega), if_neg (by omega), if_neg (by omega)]

example := C92_proj_index_error 3 (-4) (by decide)

/-- C130: refuted: not only the states 0, …, N-1 are accepted: a negative number down to -N gives a projector, on the state counted from the
    end. -/
theorem C130_proj_refuted (N : Nat) (k : Nat) (h0 : 0 < k) (hk : k ≤ N) :
    ∃ m, projMat N (-(k : ℤ)) = .ok m ∧ projMat N ((N : ℤ) - k) = .ok m := by
  refine ⟨npDiag ((List.replicate N 0).set (N - k) 1) 0, ?_, ?_⟩
  · unfold projMat
    rw [if_neg (by omega), if_neg (by omega), if_pos (by omega)]
    congr 4
    omega
  · unfold projMat
    rw [if_neg (by omega), if_pos (by omega)]
    congr 4
    omega

/-- C92: the projectors add up to the identity, and weighted with the number of bosons to `number`. -/
theorem C92_resolution (N : Nat) :
    ∃ p : Fin N → Mat ℂ, (∀ n : Fin N, projMat N n.val = .ok (p n)) ∧ ∑ n, toM N (p n) = 1
      ∧ ∑ n : Fin N, (n.val : ℂ) • toM N (p n) = toM N (numberMat N) := by
  choose p h1 _ h3 using fun n : Fin N => C92_proj N n.val n.2
  refine ⟨p, h1, ?_, ?_⟩
  · ext i j
    rw [Matrix.sum_apply]
    simp only [h3, Matrix.single_apply, Matrix.one_apply]
    by_cases h : i = j
    · subst h; simp
    · rw [if_neg h]
      apply Finset.sum_eq_zero
      intro k _
      rw [if_neg]
      rintro ⟨h1, h2⟩
      exact h (h1.symm.trans h2)
  · ext i j
    rw [Matrix.sum_apply]
    have hn : toM N (numberMat N) i j = if i.val = j.val ∧ i.val < N then (i.val : ℂ) else 0 := number_entry N i j
    simp only [h3, hn, Matrix.smul_apply, Matrix.single_apply, smul_eq_mul]
    by_cases h : i = j
    · subst h
      rw [if_pos ⟨rfl, i.2⟩, Finset.sum_eq_single i]
      · simp
      · intro k _ hk
        rw [if_neg (fun h => hk h.1), mul_zero]
      · intro h; simp at h
    · rw [if_neg (fun h' => h (Fin.ext h'.1))]
      apply Finset.sum_eq_zero
      intro k _
      rw [if_neg, mul_zero]
      rintro ⟨h1, h2⟩
      exact h (h1.symm.trans h2)

/-- C92: on `Fock(n_max)`: `⟨x|a|x'⟩ = √n'` and `⟨x|a†|x'⟩ = √n` between neighbouring occupations, `⟨x|a†a|x⟩ = n`, everything else zero. -/
theorem C92_configurations {n : Nat} {cut : Cutoff ℂ} (hid : Ideal cut) (nMax : Nat) (s : Fin n) :
    ∃ a c k, onSite cut (fun _ => fockStates nMax) destroyMat s = .ok a ∧ onSite cut (fun _ => fockStates nMax) createMat s = .ok c
      ∧ onSite cut (fun _ => fockStates nMax) numberMat s = .ok k
      ∧ ∀ (gm : Nat → ℂ) (gx : Nat → Fin n → ℤ) (x x' : Fin n → ℤ), Valid (fun _ => fockStates nMax) x → Valid (fun _ => fockStates nMax) x' →
        melAt (getConn (fun _ => fockStates nMax) a gm gx x) x'
            = (if (∀ t, t ≠ s → x t = x' t) ∧ x' s = x s + 1 then ((Real.sqrt (x' s) : ℝ) : ℂ) else 0)
        ∧ melAt (getConn (fun _ => fockStates nMax) c gm gx x) x'
            = (if (∀ t, t ≠ s → x t = x' t) ∧ x s = x' s + 1 then ((Real.sqrt (x s) : ℝ) : ℂ) else 0)
        ∧ melAt (getConn (fun _ => fockStates nMax) k gm gx x) x' = (if x = x' then ((x s : ℤ) : ℂ) else 0) := by
  have hlen : (fockStates nMax).length = nMax + 1 := by simp [fockStates]
  have hd := C92_dimension (fockStates nMax).length (by rw [hlen]; omega)
  have hs : SortedSpace (fun _ : Fin n => fockStates nMax) := fun _ => fockStates_sorted nMax
  obtain ⟨a, h1, h2⟩ := C91_get_conn (hi := fun _ : Fin n => fockStates nMax) hid hs destroyMat s hd.1
  obtain ⟨c, h3, h4⟩ := C91_get_conn (hi := fun _ : Fin n => fockStates nMax) hid hs createMat s hd.2.1
  obtain ⟨k, h5, h6⟩ := C91_get_conn (hi := fun _ : Fin n => fockStates nMax) hid hs numberMat s hd.2.2
  refine ⟨a, c, k, h1, h3, h5, fun gm gx x x' hx hx' => ?_⟩
  rw [h2 gm gx x x' hx hx', h4 gm gx x x' hx hx', h6 gm gx x x' hx hx']
  obtain ⟨i, hi, ei⟩ := (fockStates_mem _ _).1 (hx s)
  obtain ⟨j, hj, ej⟩ := (fockStates_mem _ _).1 (hx' s)
  rw [ei, ej, fockStates_idxOf _ _ hi, fockStates_idxOf _ _ hj, destroy_entry, create_entry, number_entry, hlen]
  refine ⟨?_, ?_, ?_⟩
  · by_cases ha : ∀ t, t ≠ s → x t = x' t
    · rw [if_pos ha]
      by_cases h : j = i + 1
      · rw [if_pos ⟨h, by omega⟩, if_pos ⟨ha, by omega⟩, h]
        unfold root
        push_cast
        rfl
      · rw [if_neg (fun h' => h h'.1), if_neg (fun h' => h (by omega))]
    · rw [if_neg ha, if_neg (fun h' => ha h'.1)]
  · by_cases ha : ∀ t, t ≠ s → x t = x' t
    · rw [if_pos ha]
      by_cases h : i = j + 1
      · rw [if_pos ⟨h, by omega⟩, if_pos ⟨ha, by omega⟩, h]
        unfold root
        push_cast
        rfl
      · rw [if_neg (fun h' => h h'.1), if_neg (fun h' => h (by omega))]
    · rw [if_neg ha, if_neg (fun h' => ha h'.1)]
  · by_cases h : x = x'
    · subst h
      have : i = j := by omega
      subst this
      rw [if_pos (fun _ _ => rfl), if_pos ⟨rfl, by omega⟩, if_pos rfl]
      push_cast
      rfl
    · rw [if_neg h]
      split
      · rename_i ha
        rw [if_neg]
        rintro ⟨hij, _⟩
        apply h
        rw [← agree_iff s]
        exact ⟨ha, by rw [ei, ej, hij]⟩
      · rfl

/-! ## Examples -/

/-- the hypotheses on cutoff and space can be met: exact comparison with zero, two spins one half. -/
example : ∃ cut : Cutoff ℂ, Ideal cut ∧ SortedSpace (fun _ : Fin 2 => spinStates 1) ∧ spinStates 1 = [-1, 1]
    ∧ Valid (fun _ : Fin 2 => spinStates 1) ![1, 1] ∧ sumConstraint 2 (![1, 1] : Fin 2 → ℤ) = true := by
  classical
  refine ⟨⟨fun z => decide (z ≠ 0), fun z => decide (z ≠ 0)⟩, ?_, fun _ => spinStates_sorted 1, by decide, ?_, by decide⟩
  · constructor <;> simp
  · intro s
    fin_cases s <;> decide

/-- matrix elements of spin one: `σ⁺` has √2 twice. -/
example : step 3 0 = 2 ∧ step 3 1 = 2 ∧ step 4 1 = 4 := by norm_num [step]

/-- `C130_proj_refuted`: `proj(hi, 0, -1)` on three states. -/
example : ∃ m, projMat 3 (-1) = .ok m ∧ projMat 3 2 = .ok m := C130_proj_refuted 3 1 (by decide) (by decide)

/-! cases for the theorems about `get_conn`: two spins 1/2, exact comparisons with zero -/

section
open Classical

/-- entries are kept precisely if they are not zero. -/
noncomputable def exCut : Cutoff ℂ := ⟨fun z => decide (z ≠ 0), fun z => decide (z ≠ 0)⟩

theorem exCut_ideal : Ideal exCut := by constructor <;> simp [exCut]

example := C91_get_conn exCut_ideal (fun _ : Fin 2 => spinStates_sorted 1) (fun n => ⟨n, fun i j => if i = j then 0 else 1⟩) 1 rfl

example := C129_sigmaz_partial exCut_ideal 1 (1 : Fin 2)

example := C129_sigmaz_refuted exCut_ideal 1 2 (by decide) (1 : Fin 2)

example := C129_total_sz_partial (n := 2) exCut_ideal 1 2

example := C129_total_sz_refuted exCut_ideal 1 2 (by decide) ![1, 1] (by intro s; fin_cases s <;> decide) (by decide)

example := C129_ladder_direction_partial exCut_ideal 1 (1 : Fin 2)

example := C92_configurations exCut_ideal 3 (1 : Fin 2)

end

end Verif.SpinBoson
