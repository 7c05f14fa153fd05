import Mathlib.RepresentationTheory.Character
import Mathlib.RepresentationTheory.Irreducible
import Mathlib.RingTheory.SimpleModule.Basic
import Mathlib.Analysis.Complex.Polynomial.Basic
import Mathlib.Tactic.Ring
import Mathlib.Tactic.LinearCombination
import Mathlib.Tactic.FieldSimp

/-! Normalised irreducible characters `χ(g)/χ(1)` of a finite group are the solutions of
`(1/|G|) ∑ₕ φ(r h g h⁻¹) = φ(r) φ(g)`, `φ(1) = 1`. -/

namespace Verif.Irrep

open Finset

variable {G : Type} [Group G] [Fintype G]

/-- the functional equation. -/
structure Spherical (φ : G → ℂ) : Prop where
  one : φ 1 = 1
  eqn : ∀ r g, ∑ h, φ (r * (h * g * h⁻¹)) = (Fintype.card G : ℂ) * (φ r * φ g)

theorem card_ne : (Fintype.card G : ℂ) ≠ 0 := Nat.cast_ne_zero.2 Fintype.card_ne_zero

namespace Spherical

variable {φ : G → ℂ} (hφ : Spherical φ)
include hφ

theorem conj_inv (k g : G) : φ (k * g * k⁻¹) = φ g := by
  have h1 := hφ.eqn 1 g
  have h2 := hφ.eqn 1 (k * g * k⁻¹)
  simp only [one_mul, hφ.one] at h1 h2
  have h3 : ∑ h, φ (h * (k * g * k⁻¹) * h⁻¹) = ∑ h, φ (h * g * h⁻¹) := by
    refine Fintype.sum_equiv (Equiv.mulRight k) _ _ fun h => ?_
    congr 1
    simp [mul_assoc]
  rw [h3, h1] at h2
  exact (mul_left_cancel₀ card_ne h2).symm

theorem comm (g h : G) : φ (g * h) = φ (h * g) := by
  have := hφ.conj_inv h (g * h)
  rw [← this]
  congr 1
  group

theorem normSq_ne : ∑ r, φ r * (starRingEnd ℂ) (φ r) ≠ 0 := by
  have h : ∑ r, φ r * (starRingEnd ℂ) (φ r) = ((∑ r, Complex.normSq (φ r) : ℝ) : ℂ) := by
    push_cast
    exact Finset.sum_congr rfl fun r _ => Complex.mul_conj _
  rw [h]
  norm_cast
  have : Complex.normSq (φ 1) ≤ ∑ r, Complex.normSq (φ r) :=
    Finset.single_le_sum (fun r _ => Complex.normSq_nonneg _) (Finset.mem_univ 1)
  rw [hφ.one, map_one] at this
  linarith

theorem inv_eq_conj (g : G) : φ g⁻¹ = (starRingEnd ℂ) (φ g) := by
  have key : (Fintype.card G : ℂ) * (φ g * ∑ r, φ r * (starRingEnd ℂ) (φ r)) =
      (Fintype.card G : ℂ) * ((starRingEnd ℂ) (φ g⁻¹) * ∑ r, φ r * (starRingEnd ℂ) (φ r)) := by
    calc (Fintype.card G : ℂ) * (φ g * ∑ r, φ r * (starRingEnd ℂ) (φ r))
        = ∑ r, (∑ h, φ (r * (h * g * h⁻¹))) * (starRingEnd ℂ) (φ r) := by
          rw [mul_sum, mul_sum]
          refine sum_congr rfl fun r _ => ?_
          rw [hφ.eqn]
          ring
      _ = ∑ h, ∑ r, φ (r * (h * g * h⁻¹)) * (starRingEnd ℂ) (φ r) := by
          simp only [sum_mul]
          exact sum_comm
      _ = ∑ h, ∑ r, φ r * (starRingEnd ℂ) (φ (r * (h * g⁻¹ * h⁻¹))) := by
          refine sum_congr rfl fun h _ => ?_
          refine Fintype.sum_equiv (Equiv.mulRight (h * g * h⁻¹)) _ _ fun r => ?_
          simp only [Equiv.coe_mulRight]
          congr 3
          group
      _ = ∑ r, φ r * (starRingEnd ℂ) (∑ h, φ (r * (h * g⁻¹ * h⁻¹))) := by
          rw [sum_comm]
          refine sum_congr rfl fun r _ => ?_
          rw [map_sum, mul_sum]
      _ = (Fintype.card G : ℂ) * ((starRingEnd ℂ) (φ g⁻¹) * ∑ r, φ r * (starRingEnd ℂ) (φ r)) := by
          rw [mul_sum, mul_sum]
          refine sum_congr rfl fun r _ => ?_
          rw [hφ.eqn]
          simp only [map_mul, map_natCast]
          ring
  have h1 := mul_right_cancel₀ hφ.normSq_ne (mul_left_cancel₀ card_ne key)
  rw [h1, Complex.conj_conj]

/-- class functions act by scalars. -/
theorem conv (b : G → ℂ) (hb : ∀ h x, b (h * x * h⁻¹) = b x) (r : G) :
    ∑ x, b x * φ (r * x) = (∑ x, b x * φ x) * φ r := by
  refine mul_left_cancel₀ (card_ne (G := G)) ?_
  calc (Fintype.card G : ℂ) * ∑ x, b x * φ (r * x)
      = ∑ h : G, ∑ x, b x * φ (r * (h * x * h⁻¹)) := by
        rw [← nsmul_eq_mul, ← Finset.card_univ, ← Finset.sum_const]
        refine sum_congr rfl fun h _ => ?_
        refine Fintype.sum_equiv (MulAut.conj h⁻¹).toEquiv _ _ fun x => ?_
        simp only [MulEquiv.toEquiv_eq_coe, MulEquiv.coe_toEquiv, MulAut.conj_apply, inv_inv]
        congr 1
        · have := hb h⁻¹ x
          rw [inv_inv] at this
          exact this.symm
        · congr 2
          group
    _ = ∑ x, b x * ∑ h, φ (r * (h * x * h⁻¹)) := by
        rw [sum_comm]
        exact sum_congr rfl fun x _ => (mul_sum _ _ _).symm
    _ = _ := by
        rw [sum_mul, mul_sum]
        refine sum_congr rfl fun x _ => ?_
        rw [hφ.eqn]
        ring

end Spherical

/-! ### from the functional equation to a representation -/

section
variable (φ : G → ℂ)

/-- linear extension. -/
noncomputable def ext : MonoidAlgebra ℂ G →ₗ[ℂ] ℂ where
  toFun x := ∑ g, x.coeff g * φ g
  map_add' x y := by simp [add_mul, sum_add_distrib]
  map_smul' c x := by simp [mul_sum, mul_assoc]

theorem ext_single (g : G) (c : ℂ) : ext φ (MonoidAlgebra.single g c) = c * φ g := by
  classical
  show ∑ h, (MonoidAlgebra.single g c).coeff h * φ h = _
  simp [Finsupp.single_apply]

/-- `∑ₕ h g h⁻¹`. -/
noncomputable def classSum (g : G) : MonoidAlgebra ℂ G := ∑ h : G, MonoidAlgebra.single (h * g * h⁻¹) 1

theorem classSum_comm (g k : G) :
    MonoidAlgebra.single k (1 : ℂ) * classSum g = classSum g * MonoidAlgebra.single k 1 := by
  unfold classSum
  rw [mul_sum, sum_mul]
  refine Fintype.sum_equiv (Equiv.mulLeft k) _ _ fun h => ?_
  simp only [MonoidAlgebra.single_mul_single, one_mul, Equiv.coe_mulLeft]
  congr 1
  group

theorem classSum_central (g : G) (x : MonoidAlgebra ℂ G) : x * classSum g = classSum g * x := by
  induction x using MonoidAlgebra.induction_on with
  | of k => exact classSum_comm g k
  | add a b ha hb => rw [add_mul, mul_add, ha, hb]
  | smul c a ha => rw [smul_mul_assoc, ha, mul_smul_comm]

/-- `{x | φ(y x) = 0 for all y}`. -/
noncomputable def radical : Ideal (MonoidAlgebra ℂ G) where
  carrier := {x | ∀ y, ext φ (y * x) = 0}
  add_mem' := fun {a b} ha hb y => by rw [mul_add, map_add, ha y, hb y, add_zero]
  zero_mem' := fun y => by simp
  smul_mem' := fun c x hx y => by rw [smul_eq_mul, ← mul_assoc]; exact hx _

variable {φ}

theorem classSum_radical (hφ : Spherical φ) (g : G) :
    classSum g - ((Fintype.card G : ℂ) * φ g) • (1 : MonoidAlgebra ℂ G) ∈ radical φ := by
  intro y
  rw [mul_sub, map_sub, sub_eq_zero, mul_smul_comm, mul_one, map_smul, smul_eq_mul]
  induction y using MonoidAlgebra.induction_on with
  | of r =>
    rw [MonoidAlgebra.of_apply, classSum, mul_sum, map_sum, ext_single, one_mul]
    simp only [MonoidAlgebra.single_mul_single, ext_single, one_mul]
    rw [hφ.eqn]
    ring
  | add a b ha hb => rw [add_mul, map_add, map_add, ha, hb, mul_add]
  | smul c a ha => rw [smul_mul_assoc, map_smul, map_smul, ha, smul_eq_mul, smul_eq_mul]; ring

theorem radical_ne_top (hφ : Spherical φ) : radical φ ≠ ⊤ := by
  intro h
  have : (1 : MonoidAlgebra ℂ G) ∈ radical φ := by rw [h]; trivial
  have h1 := this 1
  rw [mul_one, MonoidAlgebra.one_def, ext_single, hφ.one] at h1
  norm_num at h1

end

/-- an irreducible character of dimension `d` divided by `d`. -/
def IsNormChar (φ : G → ℂ) : Prop :=
  ∃ (V : Type) (_ : AddCommGroup V) (_ : Module ℂ V) (_ : FiniteDimensional ℂ V) (ρ : Representation ℂ G V),
    ρ.IsIrreducible ∧ ∀ g, ρ.character g = (Module.finrank ℂ V : ℂ) * φ g

theorem ofModule'_asAlgebraHom (M : Type) [AddCommGroup M] [Module ℂ M] [Module (MonoidAlgebra ℂ G) M]
    [IsScalarTower ℂ (MonoidAlgebra ℂ G) M] (x : MonoidAlgebra ℂ G) (m : M) :
    (Representation.ofModule' (k := ℂ) (G := G) M).asAlgebraHom x m = x • m := by
  induction x using MonoidAlgebra.induction_on with
  | of g => rw [MonoidAlgebra.of_apply, Representation.asAlgebraHom_single, one_smul]; rfl
  | add a b ha hb => rw [map_add, LinearMap.add_apply, ha, hb, add_smul]
  | smul c a ha => rw [map_smul, LinearMap.smul_apply, ha, smul_assoc]

theorem of_module (φ : G → ℂ) (M : Type) [AddCommGroup M] [Module ℂ M] [Module (MonoidAlgebra ℂ G) M]
    [IsScalarTower ℂ (MonoidAlgebra ℂ G) M] [IsSimpleModule (MonoidAlgebra ℂ G) M]
    (hsc : ∀ g (m : M), classSum g • m = ((Fintype.card G : ℂ) * φ g) • m) :
    IsNormChar φ := by
  have hirr : (Representation.ofModule' (k := ℂ) (G := G) M).IsIrreducible := by
    rw [Representation.irreducible_iff_isSimpleModule_asModule]
    let e : (Representation.ofModule' (k := ℂ) (G := G) M).asModule ≃ₗ[MonoidAlgebra ℂ G] M :=
      { (Representation.ofModule' (k := ℂ) (G := G) M).asModuleEquiv with
        map_smul' := fun x m => by
          have := Representation.asModuleEquiv_map_smul (Representation.ofModule' (k := ℂ) (G := G) M) x m
          exact this.trans (ofModule'_asAlgebraHom M x _) }
    exact IsSimpleModule.congr e
  have hfin : FiniteDimensional ℂ M := by
    obtain ⟨m, hm⟩ : ∃ m : M, m ≠ 0 := by
      have := IsSimpleModule.nontrivial (MonoidAlgebra ℂ G) M
      exact exists_ne 0
    have hspan := IsSimpleModule.toSpanSingleton_surjective (MonoidAlgebra ℂ G) hm
    let f : (G → ℂ) →ₗ[ℂ] M := ∑ g : G,
      (LinearMap.toSpanSingleton ℂ _ (MonoidAlgebra.single g (1 : ℂ) • m)).comp (LinearMap.proj g)
    refine Module.Finite.of_surjective f ?_
    intro y
    obtain ⟨x, hx⟩ := hspan y
    refine ⟨fun g => x.coeff g, ?_⟩
    rw [← hx, LinearMap.toSpanSingleton_apply]
    simp only [f, LinearMap.sum_apply, LinearMap.comp_apply, LinearMap.proj_apply, LinearMap.toSpanSingleton_apply]
    clear hx hspan
    induction x using MonoidAlgebra.induction_on with
    | of g =>
      classical
      rw [sum_eq_single g]
      · simp
      · intro b _ hb
        simp [Finsupp.single_apply, hb.symm]
      · simp
    | add a b ha hb => simp [add_smul, sum_add_distrib, ha, hb]
    | smul c a ha => simp [← ha, smul_sum, mul_smul]
  refine ⟨M, inferInstance, inferInstance, hfin, Representation.ofModule' (k := ℂ) (G := G) M, hirr, ?_⟩
  have hs : ∀ g, (Representation.ofModule' (k := ℂ) (G := G) M).asAlgebraHom (classSum g) =
      ((Fintype.card G : ℂ) * φ g) • (1 : Module.End ℂ M) := by
    intro g
    ext m
    rw [ofModule'_asAlgebraHom, hsc]
    rfl
  intro g
  have h1 := congrArg (LinearMap.trace ℂ _) (hs g)
  rw [classSum, map_sum, map_sum, map_smul, LinearMap.trace_one] at h1
  simp only [Representation.asAlgebraHom_single, one_smul] at h1
  refine mul_left_cancel₀ (card_ne (G := G)) ?_
  have h2 : ∀ h : G, LinearMap.trace ℂ _ ((Representation.ofModule' (k := ℂ) (G := G) M)
      (h * g * h⁻¹)) = (Representation.ofModule' (k := ℂ) (G := G) M).character g :=
    fun h => Representation.char_conj _ g h
  rw [sum_congr rfl fun h _ => h2 h, sum_const, card_univ, nsmul_eq_mul, smul_eq_mul] at h1
  rw [h1]
  ring

theorem Spherical.isNormChar {φ : G → ℂ} (hφ : Spherical φ) : IsNormChar φ := by
  obtain ⟨I, hI, hle⟩ := Ideal.exists_le_maximal _ (radical_ne_top hφ)
  have hsimple : IsSimpleModule (MonoidAlgebra ℂ G) (MonoidAlgebra ℂ G ⧸ I) :=
    isSimpleModule_iff_isCoatom.2 (Ideal.isMaximal_def.1 hI)
  refine of_module φ (MonoidAlgebra ℂ G ⧸ I) ?_
  intro g m
  obtain ⟨x, rfl⟩ := Submodule.Quotient.mk_surjective I m
  rw [← Submodule.Quotient.mk_smul, ← Submodule.Quotient.mk_smul, Submodule.Quotient.eq]
  have h1 := I.smul_mem x (hle (classSum_radical hφ g))
  rw [smul_eq_mul, mul_sub, classSum_central] at h1
  rw [smul_eq_mul]
  rwa [mul_smul_comm, mul_one] at h1

/-! ### from a representation to the functional equation -/

section
variable {V : Type} [AddCommGroup V] [Module ℂ V] [FiniteDimensional ℂ V] (ρ : Representation ℂ G V)

theorem finrank_ne [hρ : ρ.IsIrreducible] : (Module.finrank ℂ V : ℂ) ≠ 0 := by
  intro h
  have h0 : Module.finrank ℂ V = 0 := by exact_mod_cast h
  have hs : Subsingleton V := Module.finrank_zero_iff.1 h0
  have hn := hρ.toNontrivial
  obtain ⟨a, b, hab⟩ := hn
  refine hab ?_
  ext x
  have : x = 0 := Subsingleton.elim _ _
  subst this
  exact ⟨fun _ => b.toSubmodule.zero_mem, fun _ => a.toSubmodule.zero_mem⟩

/-- Schur's lemma. -/
theorem schur [ρ.IsIrreducible] (A : V →ₗ[ℂ] V) (hA : ∀ g, A ∘ₗ ρ g = ρ g ∘ₗ A) : ∃ c : ℂ, A = c • 1 := by
  let f : Representation.IntertwiningMap ρ ρ := ⟨A, hA⟩
  obtain ⟨c, hc⟩ := (Representation.IsIrreducible.algebraMap_intertwiningMap_bijective_of_isAlgClosed (ρ := ρ)
    (k := ℂ)).2 f
  refine ⟨c, ?_⟩
  have := congrArg Representation.IntertwiningMap.toLinearMap hc
  exact this.symm

theorem classOp [ρ.IsIrreducible] (g : G) :
    (Module.finrank ℂ V : ℂ) • ∑ h : G, ρ (h * g * h⁻¹) = ((Fintype.card G : ℂ) * ρ.character g) • 1 := by
  obtain ⟨c, hc⟩ := schur ρ (∑ h : G, ρ (h * g * h⁻¹)) (by
    intro k
    rw [← Module.End.mul_eq_comp, ← Module.End.mul_eq_comp, sum_mul, mul_sum]
    refine Fintype.sum_equiv (Equiv.mulLeft k⁻¹) _ _ fun h => ?_
    rw [← map_mul, ← map_mul]
    congr 1
    simp only [Equiv.coe_mulLeft]
    group)
  have h1 := congrArg (LinearMap.trace ℂ V) hc
  rw [map_sum, map_smul, LinearMap.trace_one] at h1
  have h2 : ∀ h : G, LinearMap.trace ℂ V (ρ (h * g * h⁻¹)) = ρ.character g :=
    fun h => Representation.char_conj _ g h
  rw [sum_congr rfl fun h _ => h2 h, sum_const, card_univ, nsmul_eq_mul, smul_eq_mul] at h1
  rw [hc, h1, smul_smul, mul_comm]

theorem spherical_of_irreducible [ρ.IsIrreducible] :
    Spherical fun g => ρ.character g / (Module.finrank ℂ V : ℂ) := by
  have hd := finrank_ne ρ
  refine ⟨by simp [Representation.char_one, hd], fun r g => ?_⟩
  have h1 := congrArg (fun A => LinearMap.trace ℂ V (ρ r * A)) (classOp ρ g)
  simp only [mul_smul_comm, mul_sum, mul_one, map_smul, map_sum, ← map_mul, smul_eq_mul] at h1
  rw [← sum_div]
  have h2 : ∀ h, LinearMap.trace ℂ V (ρ (r * (h * g * h⁻¹))) = ρ.character (r * (h * g * h⁻¹)) := fun _ => rfl
  have h3 : LinearMap.trace ℂ V (ρ r) = ρ.character r := rfl
  simp only [h2, h3] at h1
  rw [← mul_sum] at h1
  field_simp
  linear_combination h1

/-- `χ(g⁻¹)` is the complex conjugate of `χ(g)`. -/
theorem char_inv [ρ.IsIrreducible] (g : G) : ρ.character g⁻¹ = (starRingEnd ℂ) (ρ.character g) := by
  have h := (spherical_of_irreducible ρ).inv_eq_conj g
  simp only [map_div₀, map_natCast] at h
  exact (div_left_inj' (finrank_ne ρ)).1 h

/-- the squares of the absolute values add up to the order of the group. -/
theorem char_normSq [ρ.IsIrreducible] : ∑ g, ρ.character g * (starRingEnd ℂ) (ρ.character g) = Fintype.card G := by
  have hinv : Invertible (Nat.card G : ℂ) := invertibleOfNonzero (by rw [Nat.card_eq_fintype_card]; exact card_ne)
  have h := Representation.char_orthonormal ρ ρ
  rw [if_pos ⟨Representation.Equiv.refl ρ⟩, Nat.card_eq_fintype_card] at h
  simp only [char_inv] at h
  field_simp [card_ne (G := G)] at h
  rw [h]

end

/-- two solutions that are proportional are equal. -/
theorem Spherical.eq_of_smul {φ ψ : G → ℂ} (hφ : Spherical φ) (hψ : Spherical ψ) (c : ℂ) (h : ∀ g, φ g = c * ψ g) :
    φ = ψ := by
  have h1 := h 1
  rw [hφ.one, hψ.one, mul_one] at h1
  funext g
  rw [h g, ← h1, one_mul]

end Verif.Irrep
