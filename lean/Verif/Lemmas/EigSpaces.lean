import Verif.Lemmas.Isotypic
import Mathlib.LinearAlgebra.Matrix.ToLin
import Mathlib.LinearAlgebra.Trace

/-! Eigenspaces of a Hermitian matrix commuting with right translations. -/

namespace Verif.Irrep
open Finset
variable {G : Type} [Group G] [Fintype G] {ι κ : Type} [Fintype ι] [Fintype κ] [DecidableEq ι] [DecidableEq κ] [DecidableEq G]

/-- an orthonormal basis of eigenvectors of the matrix `M`. -/
structure EigBasis (M : G → G → ℂ) (lam : ι → ℝ) (B : ι → G → ℂ) : Prop where
  herm : ∀ g h, (starRingEnd ℂ) (M g h) = M h g
  inv : ∀ g h k, M (g * k) (h * k) = M g h
  eig : ∀ j g, ∑ h, M g h * B j h = lam j * B j g
  orth : ∀ i j, ∑ g, (starRingEnd ℂ) (B i g) * B j g = if i = j then 1 else 0
  comp : ∀ g h, ∑ j, B j g * (starRingEnd ℂ) (B j h) = if g = h then 1 else 0

/-- matrix elements of a right translation. -/
noncomputable def elem (B : ι → G → ℂ) (h : G) (i j : ι) : ℂ := ∑ g, (starRingEnd ℂ) (B i g) * B j (g * h)

variable {M : G → G → ℂ} {lam : ι → ℝ} {B : ι → G → ℂ}

theorem EigBasis.elem_zero (hB : EigBasis M lam B) (h : G) (i j : ι) (hne : lam i ≠ lam j) : elem B h i j = 0 := by
  have h1 : (lam j : ℂ) * elem B h i j = ∑ g, (starRingEnd ℂ) (B i g) * ∑ k, M g k * B j (k * h) := by
    unfold elem
    rw [mul_sum]
    refine sum_congr rfl fun g _ => ?_
    have : ∑ k, M g k * B j (k * h) = ∑ k, M (g * h) k * B j k := by
      refine Fintype.sum_equiv (Equiv.mulRight h) _ _ fun k => ?_
      simp [hB.inv]
    rw [this, hB.eig]
    ring
  have h2 : (lam i : ℂ) * elem B h i j = ∑ k, (∑ g, (starRingEnd ℂ) (B i g) * M g k) * B j (k * h) := by
    unfold elem
    rw [mul_sum]
    refine sum_congr rfl fun k _ => ?_
    have : ∑ g, (starRingEnd ℂ) (B i g) * M g k = (lam i : ℂ) * (starRingEnd ℂ) (B i k) := by
      have h3 := congrArg (starRingEnd ℂ) (hB.eig i k)
      simp only [map_sum, map_mul, hB.herm, Complex.conj_ofReal] at h3
      rw [← h3]
      exact sum_congr rfl fun g _ => mul_comm _ _
    rw [this]
    ring
  have h3 : (lam j : ℂ) * elem B h i j = (lam i : ℂ) * elem B h i j := by
    rw [h1, h2]
    simp only [mul_sum, sum_mul]
    rw [sum_comm]
    exact sum_congr rfl fun _ _ => sum_congr rfl fun _ _ => by ring
  have h4 : ((lam j : ℂ) - lam i) * elem B h i j = 0 := by rw [sub_mul, h3, sub_self]
  rcases mul_eq_zero.1 h4 with h5 | h5
  · exact absurd (Complex.ofReal_injective (sub_eq_zero.1 h5)).symm hne
  · exact h5

theorem EigBasis.elem_one (hB : EigBasis M lam B) (i j : ι) : elem B (1 : G) i j = if i = j then 1 else 0 := by
  unfold elem
  simp only [mul_one]
  exact hB.orth i j

theorem EigBasis.elem_mul (hB : EigBasis M lam B) (g h : G) (i k : ι) :
    ∑ j, elem B g i j * elem B h j k = elem B (g * h) i k := by
  unfold elem
  calc ∑ j, (∑ a, (starRingEnd ℂ) (B i a) * B j (a * g)) * ∑ b, (starRingEnd ℂ) (B j b) * B k (b * h)
      = ∑ j, ∑ a, ∑ b, (starRingEnd ℂ) (B i a) * B k (b * h) * (B j (a * g) * (starRingEnd ℂ) (B j b)) := by
        refine sum_congr rfl fun j _ => ?_
        rw [sum_mul]
        refine sum_congr rfl fun a _ => ?_
        rw [mul_sum]
        exact sum_congr rfl fun b _ => by ring
    _ = ∑ a, ∑ b, ∑ j, (starRingEnd ℂ) (B i a) * B k (b * h) * (B j (a * g) * (starRingEnd ℂ) (B j b)) := by
        rw [sum_comm]
        exact sum_congr rfl fun a _ => sum_comm
    _ = ∑ a, (starRingEnd ℂ) (B i a) * B k (a * (g * h)) := by
        refine sum_congr rfl fun a _ => ?_
        simp only [← mul_sum, hB.comp]
        rw [sum_eq_single (a * g)]
        · simp [mul_assoc]
        · intro b _ hb
          rw [if_neg (Ne.symm hb), mul_zero]
        · simp

theorem elem_inv (B : ι → G → ℂ) (h : G) (i j : ι) : elem B h⁻¹ i j = (starRingEnd ℂ) (elem B h j i) := by
  unfold elem
  rw [map_sum]
  refine Fintype.sum_equiv (Equiv.mulRight h⁻¹) _ _ fun g => ?_
  simp [mul_comm]

/-- a set of eigenvectors containing all of each of its eigenvalues. -/
def Closed (lam : ι → ℝ) (S : κ → ι) : Prop := Function.Injective S ∧ ∀ j k, (∀ i, S i ≠ j) → lam j ≠ lam (S k)

theorem EigBasis.sub_mul (hB : EigBasis M lam B) (S : κ → ι) (hS : Closed lam S) (g h : G) (i k : κ) :
    ∑ j, elem B g (S i) (S j) * elem B h (S j) (S k) = elem B (g * h) (S i) (S k) := by
  rw [← hB.elem_mul g h]
  have h1 : ∑ j, elem B g (S i) (S j) * elem B h (S j) (S k) =
      ∑ j ∈ univ.image S, elem B g (S i) j * elem B h j (S k) := by
    rw [sum_image (fun a _ b _ hab => hS.1 hab)]
  rw [h1]
  refine sum_subset (subset_univ _) fun j _ hj => ?_
  rw [hB.elem_zero h j (S k) (hS.2 j k fun i hi => hj (mem_image.2 ⟨i, mem_univ _, hi⟩)), mul_zero]

/-- the representation on the eigenspaces. -/
noncomputable def EigBasis.rep (hB : EigBasis M lam B) (S : κ → ι) (hS : Closed lam S) : Representation ℂ G (κ → ℂ) where
  toFun h := Matrix.toLin' (Matrix.of fun i j => elem B h (S i) (S j))
  map_one' := by
    rw [Module.End.one_eq_id, ← Matrix.toLin'_one]
    congr 1
    ext i j
    simp only [Matrix.of_apply, hB.elem_one, Matrix.one_apply, hS.1.eq_iff]
  map_mul' g h := by
    rw [Module.End.mul_eq_comp, ← Matrix.toLin'_mul]
    congr 1
    ext i k
    simp only [Matrix.of_apply, Matrix.mul_apply]
    exact (hB.sub_mul S hS g h i k).symm

theorem EigBasis.trace_rep (hB : EigBasis M lam B) (S : κ → ι) (hS : Closed lam S) (h : G) :
    LinearMap.trace ℂ _ (hB.rep S hS h) = ∑ i, elem B h (S i) (S i) := by
  change LinearMap.trace ℂ _ (Matrix.toLin' _) = _
  rw [Matrix.trace_toLin'_eq]
  rfl

/-- right translations in coordinates. -/
theorem EigBasis.expand (hB : EigBasis M lam B) (S : κ → ι) (hS : Closed lam S) (h : G) (k : κ) (g : G) :
    B (S k) (g * h) = ∑ i, elem B h (S i) (S k) * B (S i) g := by
  have h1 : ∑ i, elem B h (S i) (S k) * B (S i) g = ∑ j ∈ univ.image S, elem B h j (S k) * B j g := by
    rw [sum_image (fun a _ b _ hab => hS.1 hab)]
  rw [h1]
  have h2 : ∑ j ∈ univ.image S, elem B h j (S k) * B j g = ∑ j, elem B h j (S k) * B j g := by
    refine sum_subset (subset_univ _) fun j _ hj => ?_
    rw [hB.elem_zero h j (S k) (hS.2 j k fun i hi => hj (mem_image.2 ⟨i, mem_univ _, hi⟩)), zero_mul]
  rw [h2]
  unfold elem
  simp only [sum_mul]
  rw [sum_comm]
  have h3 : ∀ a, ∑ j, (starRingEnd ℂ) (B j a) * B (S k) (a * h) * B j g = if g = a then B (S k) (a * h) else 0 := by
    intro a
    have := hB.comp g a
    calc _ = B (S k) (a * h) * ∑ j, B j g * (starRingEnd ℂ) (B j a) := by
          rw [mul_sum]
          exact sum_congr rfl fun _ _ => by ring
      _ = _ := by rw [this]; split <;> simp
  simp only [h3]
  simp

/-- if the projection of a vector is not zero, neither is the projector. -/
theorem EigBasis.projector_ne (hB : EigBasis M lam B) (S : κ → ι) (hS : Closed lam S) (χ : G → ℂ) (k : κ) (g : G)
    (hne : ∑ h, (starRingEnd ℂ) (χ h) * B (S k) (g * h) ≠ 0) : projector (hB.rep S hS) χ ≠ 0 := by
  intro h0
  apply hne
  have h1 := congrArg (fun f => f (Pi.single k 1)) h0
  simp only [projector, LinearMap.sum_apply, LinearMap.smul_apply, LinearMap.zero_apply] at h1
  have h2 : ∀ i, ∑ h, (starRingEnd ℂ) (χ h) * elem B h (S i) (S k) = 0 := by
    intro i
    have h3 := congrFun h1 i
    simp only [Finset.sum_apply, Pi.smul_apply, Pi.zero_apply, smul_eq_mul] at h3
    rw [← h3]
    refine sum_congr rfl fun h _ => ?_
    congr 1
    change _ = Matrix.toLin' _ _ i
    rw [Matrix.toLin'_apply, Matrix.mulVec_single_one]
    rfl
  calc ∑ h, (starRingEnd ℂ) (χ h) * B (S k) (g * h)
      = ∑ h, ∑ i, (starRingEnd ℂ) (χ h) * elem B h (S i) (S k) * B (S i) g := by
        refine sum_congr rfl fun h _ => ?_
        rw [hB.expand S hS h k g, mul_sum]
        exact sum_congr rfl fun _ _ => by ring
    _ = ∑ i, (∑ h, (starRingEnd ℂ) (χ h) * elem B h (S i) (S k)) * B (S i) g := by
        rw [sum_comm]
        exact sum_congr rfl fun _ _ => by rw [sum_mul]
    _ = 0 := by simp [h2]

omit [DecidableEq G] in
/-- the projector of another character vanishes on an irreducible representation. -/
theorem projector_other {V : Type} [AddCommGroup V] [Module ℂ V] [FiniteDimensional ℂ V] (ρ : Representation ℂ G V)
    (hρ : ρ.IsIrreducible) {χ : G → ℂ} (hχ : IsIrrChar χ) (hP : projector ρ χ ≠ 0) : ∀ g, LinearMap.trace ℂ V (ρ g) = χ g := by
  by_contra hne
  have hψ : IsIrrChar fun g => LinearMap.trace ℂ _ (ρ g) := ⟨_, _, _, inferInstance, ρ, hρ, fun _ => rfl⟩
  have horth := hψ.orthogonal hχ (fun h => hne fun g => congrFun h g)
  have hcl : IsClassFn χ := by
    obtain ⟨d, hd, -, -, hs⟩ := hχ.facts
    have hd' : (d : ℂ) ≠ 0 := Nat.cast_ne_zero.2 (by omega)
    intro x g
    exact (div_left_inj' hd').1 (hs.conj_inv x g)
  obtain ⟨c, hc⟩ := schur ρ (projector ρ χ) (projector_comm _ χ hcl)
  have htr := congrArg (LinearMap.trace ℂ _) hc
  have h1 : LinearMap.trace ℂ _ (projector ρ χ) = 0 := by
    rw [← horth]
    unfold projector
    rw [map_sum]
    exact sum_congr rfl fun g _ => by rw [map_smul, smul_eq_mul]
  rw [h1, map_smul, smul_eq_mul, LinearMap.trace_one] at htr
  have hc0 : c = 0 := by
    rcases mul_eq_zero.1 htr.symm with h | h
    · exact h
    · exact absurd h (finrank_ne ρ)
  rw [hc0, zero_smul] at hc
  exact hP hc

end Verif.Irrep
