import Verif.Lemmas.IrrChar
import Mathlib.RepresentationTheory.Subrepresentation

/-! A representation of the dimension of an irreducible character on which its projector does not vanish. -/

namespace Verif.Irrep
open Finset
variable {G : Type} [Group G] [Fintype G]
variable {V : Type} [AddCommGroup V] [Module ℂ V] [FiniteDimensional ℂ V] (ρ : Representation ℂ G V)

/-- `∑ conj χ(g) ρ(g)`. -/
noncomputable def projector (χ : G → ℂ) : V →ₗ[ℂ] V := ∑ g, (starRingEnd ℂ) (χ g) • ρ g

omit [FiniteDimensional ℂ V] in
theorem projector_comm (χ : G → ℂ) (hχ : IsClassFn χ) (h : G) : projector ρ χ ∘ₗ ρ h = ρ h ∘ₗ projector ρ χ := by
  unfold projector
  rw [← Module.End.mul_eq_comp, ← Module.End.mul_eq_comp, sum_mul, mul_sum]
  refine Fintype.sum_equiv (MulAut.conj h⁻¹).toEquiv _ _ fun g => ?_
  simp only [MulEquiv.toEquiv_eq_coe, MulEquiv.coe_toEquiv, MulAut.conj_apply, inv_inv, smul_mul_assoc, mul_smul_comm, ← map_mul]
  have h1 := hχ h⁻¹ g
  rw [inv_inv] at h1
  rw [h1]
  congr 2
  group

theorem conv_self {χ : G → ℂ} (hχ : IsIrrChar χ) (k : G) :
    ∑ g, χ g * χ (g⁻¹ * k) = (Fintype.card G : ℂ) / χ 1 * χ k := by
  obtain ⟨d, hd, hd1, hn, hs⟩ := hχ.facts
  have hd' : (d : ℂ) ≠ 0 := Nat.cast_ne_zero.2 (by omega)
  have h1 := hs.conv (fun x => (starRingEnd ℂ) (χ x)) (fun h x => by
    have := hs.conj_inv h x
    exact congrArg (starRingEnd ℂ) ((div_left_inj' hd').1 this)) k
  have h2 : ∑ g, χ g * χ (g⁻¹ * k) = ∑ x, (starRingEnd ℂ) (χ x) * χ (k * x) := by
    refine Fintype.sum_equiv (Equiv.inv G) _ _ fun g => ?_
    have h3 := hs.inv_eq_conj g
    have h4 := hs.comm g⁻¹ k
    simp only [map_div₀, map_natCast] at h3 h4
    have h3' := (div_left_inj' hd').1 h3
    have h4' := (div_left_inj' hd').1 h4
    simp only [Equiv.inv_apply]
    rw [h3', Complex.conj_conj, h4']
  have h5 : ∑ x, (starRingEnd ℂ) (χ x) * (χ x / d) = (Fintype.card G : ℂ) / d := by
    rw [← hn, sum_div]
    exact sum_congr rfl fun x _ => by ring
  rw [h5] at h1
  rw [h2, hd1]
  have h6 : ∑ x, (starRingEnd ℂ) (χ x) * (χ (k * x) / d) = (∑ x, (starRingEnd ℂ) (χ x) * χ (k * x)) / d := by
    rw [sum_div]
    exact sum_congr rfl fun x _ => by ring
  rw [h6] at h1
  field_simp at h1 ⊢
  linear_combination h1

omit [FiniteDimensional ℂ V] in
theorem projector_sq {χ : G → ℂ} (hχ : IsIrrChar χ) :
    projector ρ χ * projector ρ χ = ((Fintype.card G : ℂ) / χ 1) • projector ρ χ := by
  obtain ⟨d, hd, hd1, -, -⟩ := hχ.facts
  unfold projector
  rw [sum_mul, smul_sum]
  have h0 : ∀ g h, ((starRingEnd ℂ) (χ g) • ρ g) * ((starRingEnd ℂ) (χ h) • ρ h) =
      ((starRingEnd ℂ) (χ g) * (starRingEnd ℂ) (χ h)) • ρ (g * h) := by
    intro g h
    rw [smul_mul_assoc, mul_smul_comm, smul_smul, map_mul]
  simp only [mul_sum, h0, smul_smul]
  have h1 : ∀ g, ∑ h, ((starRingEnd ℂ) (χ g) * (starRingEnd ℂ) (χ h)) • ρ (g * h) =
      ∑ k, ((starRingEnd ℂ) (χ g) * (starRingEnd ℂ) (χ (g⁻¹ * k))) • ρ k := by
    intro g
    refine Fintype.sum_equiv (Equiv.mulLeft g) _ _ fun h => ?_
    simp
  calc ∑ g, ∑ h, ((starRingEnd ℂ) (χ g) * (starRingEnd ℂ) (χ h)) • ρ (g * h)
      = ∑ g, ∑ k, ((starRingEnd ℂ) (χ g) * (starRingEnd ℂ) (χ (g⁻¹ * k))) • ρ k := sum_congr rfl fun g _ => h1 g
    _ = ∑ k, ∑ g, ((starRingEnd ℂ) (χ g) * (starRingEnd ℂ) (χ (g⁻¹ * k))) • ρ k := sum_comm
    _ = _ := by
        refine sum_congr rfl fun k _ => ?_
        rw [← sum_smul]
        congr 1
        have := congrArg (starRingEnd ℂ) (conv_self hχ k)
        simp only [map_sum, map_mul, map_div₀, map_natCast] at this
        rw [this, hd1, map_natCast]

/-- an irreducible subrepresentation. -/
theorem exists_irreducible (R : Subrepresentation ρ) (hR : R.toSubmodule ≠ ⊥) :
    ∃ σ : Subrepresentation ρ, σ.toSubmodule ≤ R.toSubmodule ∧ σ.toRepresentation.IsIrreducible := by
  classical
  let P : Nat → Prop := fun m => ∃ σ : Subrepresentation ρ, σ.toSubmodule ≤ R.toSubmodule ∧ σ.toSubmodule ≠ ⊥ ∧
    Module.finrank ℂ σ.toSubmodule = m
  have hP : ∃ m, P m := ⟨_, R, le_rfl, hR, rfl⟩
  obtain ⟨σ, h1, h2, h3⟩ := Nat.find_spec hP
  have hmin : ∀ τ : Subrepresentation ρ, τ.toSubmodule ≤ σ.toSubmodule → τ.toSubmodule ≠ ⊥ → τ.toSubmodule = σ.toSubmodule := by
    intro τ hτ hne
    refine Submodule.eq_of_le_of_finrank_le hτ ?_
    rw [h3]
    exact Nat.find_min' hP ⟨τ, hτ.trans h1, hne, rfl⟩
  refine ⟨σ, h1, ?_⟩
  have hnt : Nontrivial (Subrepresentation σ.toRepresentation) := by
    refine ⟨⊥, ⊤, fun h => ?_⟩
    have := congrArg Subrepresentation.toSubmodule h
    change (⊥ : Submodule ℂ σ.toSubmodule) = ⊤ at this
    apply h2
    rw [Submodule.eq_bot_iff]
    intro x hx
    have hx' : (⟨x, hx⟩ : σ.toSubmodule) ∈ (⊥ : Submodule ℂ σ.toSubmodule) := by rw [this]; trivial
    exact congrArg Subtype.val ((Submodule.mem_bot ℂ).1 hx')
  refine { toNontrivial := hnt, eq_bot_or_eq_top := fun τ => ?_ }
  let τ' : Subrepresentation ρ := ⟨τ.toSubmodule.map σ.toSubmodule.subtype, by
    rintro g v ⟨x, hx, rfl⟩
    exact ⟨_, τ.apply_mem_toSubmodule g hx, rfl⟩⟩
  by_cases h0 : τ'.toSubmodule = ⊥
  · left
    apply Subrepresentation.toSubmodule_injective
    change τ.toSubmodule = ⊥
    rw [Submodule.eq_bot_iff]
    intro x hx
    have hx' : (x : V) ∈ τ'.toSubmodule := ⟨x, hx, rfl⟩
    rw [h0] at hx'
    exact Subtype.ext ((Submodule.mem_bot ℂ).1 hx')
  · right
    have h4 := hmin τ' (Submodule.map_subtype_le _ _) h0
    apply Subrepresentation.toSubmodule_injective
    change τ.toSubmodule = ⊤
    rw [eq_top_iff]
    intro x _
    have hx : (x : V) ∈ τ'.toSubmodule := by rw [h4]; exact x.2
    obtain ⟨y, hy, hyx⟩ := hx
    rw [← Subtype.ext hyx]
    exact hy

/-- the character of such a representation. -/
theorem char_of_projector {χ : G → ℂ} (hχ : IsIrrChar χ) (hd : χ 1 = Module.finrank ℂ V) (hP : projector ρ χ ≠ 0) :
    ∀ g, LinearMap.trace ℂ V (ρ g) = χ g := by
  have hcl : IsClassFn χ := by
    obtain ⟨d, hd, -, -, hs⟩ := hχ.facts
    have hd' : (d : ℂ) ≠ 0 := Nat.cast_ne_zero.2 (by omega)
    intro x g
    exact (div_left_inj' hd').1 (hs.conj_inv x g)
  let R : Subrepresentation ρ := ⟨LinearMap.range (projector ρ χ), by
    rintro g v ⟨x, rfl⟩
    exact ⟨ρ g x, congrArg (fun f => f x) (projector_comm ρ χ hcl g)⟩⟩
  have hR : R.toSubmodule ≠ ⊥ := by
    intro h
    exact hP (LinearMap.range_eq_bot.1 h)
  obtain ⟨σ, hσ, hirr⟩ := exists_irreducible ρ R hR
  have hψ : IsIrrChar fun g => LinearMap.trace ℂ _ (σ.toRepresentation g) := ⟨_, _, _, inferInstance, σ.toRepresentation, hirr, fun _ => rfl⟩
  obtain ⟨e, he, he1, -, -⟩ := hψ.facts
  have heq : χ = fun g => LinearMap.trace ℂ _ (σ.toRepresentation g) := by
    by_contra hne
    have horth := hψ.orthogonal hχ (Ne.symm hne)
    obtain ⟨c, hc⟩ := schur σ.toRepresentation (projector σ.toRepresentation χ) (projector_comm _ χ hcl)
    have htr := congrArg (LinearMap.trace ℂ _) hc
    have h1 : LinearMap.trace ℂ _ (projector σ.toRepresentation χ) = 0 := by
      rw [← horth]
      unfold projector
      rw [map_sum]
      exact sum_congr rfl fun g _ => by rw [map_smul, smul_eq_mul]
    rw [h1, map_smul, smul_eq_mul, LinearMap.trace_one] at htr
    have hc0 : c = 0 := by
      rcases mul_eq_zero.1 htr.symm with h | h
      · exact h
      · exact absurd h (finrank_ne σ.toRepresentation)
    rw [hc0, zero_smul] at hc
    have hnt := hirr.toNontrivial
    have hne0 : σ.toSubmodule ≠ ⊥ := by
      intro hb
      obtain ⟨a, b, hab⟩ := hnt
      refine hab (Subrepresentation.toSubmodule_injective ?_)
      have : Subsingleton σ.toSubmodule := by rw [hb]; infer_instance
      exact Subsingleton.elim _ _
    obtain ⟨x, hx, hx0⟩ := Submodule.exists_mem_ne_zero_of_ne_bot hne0
    obtain ⟨y, hy⟩ := hσ hx
    have h2 : projector ρ χ x = 0 := by
      have := congrArg (fun f => ((f ⟨x, hx⟩ : σ.toSubmodule) : V)) hc
      simp only [projector, LinearMap.sum_apply, LinearMap.smul_apply, LinearMap.zero_apply, Submodule.coe_sum, Submodule.coe_smul,
        Submodule.coe_zero] at this
      simp only [projector, LinearMap.sum_apply, LinearMap.smul_apply]
      exact this
    have h3 := congrArg (fun f => f y) (projector_sq ρ hχ)
    simp only [Module.End.mul_apply, LinearMap.smul_apply] at h3
    rw [hy, h2] at h3
    obtain ⟨d, hd2, hd3, -, -⟩ := hχ.facts
    have hd' : (d : ℂ) ≠ 0 := Nat.cast_ne_zero.2 (by omega)
    rcases smul_eq_zero.1 h3.symm with h | h
    · rw [hd3] at h
      exact div_ne_zero card_ne hd' h
    · exact hx0 h
  have hdim : Module.finrank ℂ σ.toSubmodule = Module.finrank ℂ V := by
    have h1 : (Module.finrank ℂ σ.toSubmodule : ℂ) = χ 1 := by
      rw [heq]
      simp only [map_one, LinearMap.trace_one]
    rw [hd] at h1
    exact_mod_cast h1
  have htop : σ.toSubmodule = ⊤ := Submodule.eq_top_of_finrank_eq hdim
  intro g
  rw [heq]
  have hcon : ρ g = (LinearEquiv.ofTop σ.toSubmodule htop).conj (σ.toRepresentation g) := by
    ext x
    rfl
  simp only
  rw [hcon, LinearMap.trace_conj']

end Verif.Irrep
