import Verif.Spec.SpaceIrreps
import Verif.Props.Conjugacy
import Mathlib.GroupTheory.SpecificGroups.Dihedral

/-! A periodic chain with its reflections: an instance of the symmorphic space groups. -/

namespace Verif.SpaceIrreps
open Verif.Grp Matrix

/-- chain of `n` cells. -/
def chainL (n : Nat) : Geometry 1 1 := ⟨fun _ => n, fun _ => true, fun _ _ => 1⟩

theorem chain_shift (n : Nat) (z : Fin 1 → ℤ) : (chainL n).shift z = fun _ => (z 0 : ℝ) := by
  funext x
  simp [Geometry.shift, chainL]

theorem units_cases (u : ℤˣ) : u = 1 ∨ u = -1 := Int.units_eq_one_or u

/-- the reflections in the dihedral group. -/
def chainπ (n : Nat) : ℤˣ →* DihedralGroup n where
  toFun u := if u = 1 then .r 0 else .sr 0
  map_one' := by
    rw [if_pos rfl]
    rfl
  map_mul' u v := by
    have h : ¬(-1 : ℤˣ) = 1 := by decide
    rcases units_cases u with rfl | rfl <;> rcases units_cases v with rfl | rfl <;>
      simp only [mul_one, one_mul, if_true, h, if_false, mul_neg, neg_neg, DihedralGroup.sr_mul_sr, DihedralGroup.r_mul_sr,
        DihedralGroup.sr_mul_r, DihedralGroup.r_mul_r, sub_zero, add_zero]

theorem chainπ_neg (n : Nat) : chainπ n (-1) = .sr 0 := by
  show (if (-1 : ℤˣ) = 1 then (.r 0 : DihedralGroup n) else .sr 0) = .sr 0
  exact if_neg (by decide)

/-- translations in the dihedral group. -/
def chainτ (n : Nat) : Multiplicative (Fin 1 → ℤ) →* DihedralGroup n where
  toFun z := .r ((z.toAdd 0 : ℤ) : ZMod n)
  map_one' := by
    rw [toAdd_one]
    simp
  map_mul' a b := by
    rw [toAdd_mul]
    simp [DihedralGroup.r_mul_r]

theorem chainτ_apply (n : Nat) (z : Fin 1 → ℤ) : chainτ n (.ofAdd z) = .r ((z 0 : ℤ) : ZMod n) := rfl

/-- orthogonal matrices of the chain. -/
def chainW : ℤˣ →* Matrix (Fin 1) (Fin 1) ℝ where
  toFun u := Matrix.diagonal fun _ => ((u : ℤ) : ℝ)
  map_one' := by simp
  map_mul' u v := by simp [Matrix.diagonal_mul_diagonal]

theorem chainW_mul (u : ℤˣ) (v : Fin 1 → ℝ) : chainW u *ᵥ v = fun _ => ((u : ℤ) : ℝ) * v 0 := by
  funext i
  have : i = 0 := Subsingleton.elim _ _
  subst this
  simp [chainW, Matrix.mulVec_diagonal]

theorem chain_trivial (n : Nat) (u : ℤˣ) (z : Fin 1 → ℤ) :
    chainτ n (.ofAdd z) * chainπ n u = 1 ↔ u = 1 ∧ ∀ i, (chainL n).pbc i = true → ((chainL n).extent i : ℤ) ∣ z i := by
  have hd : ((z 0 : ℤ) : ZMod n) = 0 ↔ (n : ℤ) ∣ z 0 := ZMod.intCast_zmod_eq_zero_iff_dvd _ _
  rcases units_cases u with rfl | rfl
  · rw [map_one, mul_one, chainτ_apply, DihedralGroup.one_def, DihedralGroup.r.injEq, hd]
    simp [chainL]
  · rw [chainτ_apply, chainπ_neg, DihedralGroup.r_mul_sr, DihedralGroup.one_def]
    constructor
    · intro h; cases h
    · intro h; exact absurd h.1 (by decide)

theorem chain_conj (n : Nat) (u : ℤˣ) (z z' : Fin 1 → ℤ) (h : chainW u *ᵥ (chainL n).shift z = (chainL n).shift z') :
    chainπ n u * chainτ n (.ofAdd z) * (chainπ n u)⁻¹ = chainτ n (.ofAdd z') := by
  rw [chainW_mul, chain_shift, chain_shift] at h
  have h1 := congrFun h 0
  simp only at h1
  have h2 : (u : ℤ) * z 0 = z' 0 := by exact_mod_cast h1
  rw [chainτ_apply, chainτ_apply, ← h2]
  rcases units_cases u with rfl | rfl
  · simp
  · rw [chainπ_neg, DihedralGroup.sr_mul_r, DihedralGroup.inv_sr, DihedralGroup.sr_mul_sr]
    simp

/-- the periodic chain of `n` cells with its reflections is a symmorphic space group. -/
def chain (n : Nat) : Symmorphic (chainL n) ℤˣ (DihedralGroup n) where
  W := chainW
  τ := chainτ n
  π := chainπ n
  orthogonal u := by
    rcases units_cases u with rfl | rfl <;> simp [chainW]
  integral u z := ⟨fun i => (u : ℤ) * z i, by
    rw [chainW_mul, chain_shift, chain_shift]
    push_cast
    rfl⟩
  conj := chain_conj n
  trivial := chain_trivial n
  surjective x := by
    cases x with
    | r i =>
      obtain ⟨z, rfl⟩ := ZMod.intCast_surjective i
      exact ⟨fun _ => z, 1, by rw [map_one, mul_one, chainτ_apply]⟩
    | sr i =>
      obtain ⟨z, rfl⟩ := ZMod.intCast_surjective i
      exact ⟨fun _ => -z, -1, by rw [chainτ_apply, chainπ_neg, DihedralGroup.r_mul_sr]; simp⟩

theorem chain_table : IsTable [(1 : ℤˣ), -1] [[0, 1], [1, 0]] := by
  refine ⟨by decide, rfl, ?_⟩
  intro i j g h hi hj
  rcases i with _ | _ | i <;> rcases j with _ | _ | j <;> simp_all

end Verif.SpaceIrreps
