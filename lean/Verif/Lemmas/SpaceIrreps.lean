import Verif.Lemmas.LittleGroup
import Verif.Props.CharTable
import Verif.Spec.SpaceIrreps
import Mathlib.GroupTheory.QuotientGroup.Basic
import Mathlib.GroupTheory.SemidirectProduct

/-! The symmorphic space group as a semidirect product, and its induced characters. -/

namespace Verif.SpaceIrreps
open Verif.Irrep Matrix Finset
open Complex (exp I)

/-- irreducible characters are carried along isomorphisms. -/
theorem irr_comp {G H : Type} [Group G] [Group H] [Finite H] (e : G ≃* H) {χ : H → ℂ} (h : IsIrrChar χ) :
    IsIrrChar fun g => χ (e g) := by
  classical
  have : Fintype H := Fintype.ofFinite _
  have : Fintype G := Fintype.ofEquiv H e.symm.toEquiv
  have h0 := h
  obtain ⟨V, i1, i2, i3, ρ, hρ, hχ⟩ := h
  refine ⟨V, i1, i2, i3, ρ.comp e.toMonoidHom, ?_, fun g => hχ (e g)⟩
  apply irreducible_of_norm
  have e1 : ∀ g, Representation.character (ρ.comp e.toMonoidHom) g = ρ.character (e g) := fun g => rfl
  have e2 := char_normSq ρ
  simp only [e1]
  rw [Fintype.card_congr e.toEquiv, ← e2]
  refine Fintype.sum_equiv e.toEquiv _ _ fun g => ?_
  rw [map_inv, Irrep.char_inv]
  rfl

variable {d D : Nat} {L : Geometry d D} {P Γ : Type} [Group P] [Group Γ]

theorem shift_add (z z' : Fin d → ℤ) : L.shift (z + z') = L.shift z + L.shift z' := by
  simp [Geometry.shift, add_smul, sum_add_distrib]

/-- the phase of a translation. -/
noncomputable def phase (L : Geometry d D) (k : Fin D → ℝ) : Multiplicative (Fin d → ℤ) →* ℂ where
  toFun z := exp (-I * ((k ⬝ᵥ L.shift z.toAdd : ℝ) : ℂ))
  map_one' := by simp [Geometry.shift]
  map_mul' a b := by
    rw [toAdd_mul, shift_add, dotProduct_add, ← Complex.exp_add]
    congr 1
    push_cast
    ring

theorem phase_apply (k : Fin D → ℝ) (z : Fin d → ℤ) : phase L k (.ofAdd z) = exp (-I * ((k ⬝ᵥ L.shift z : ℝ) : ℂ)) := rfl

theorem phase_norm (k : Fin D → ℝ) (z) : ‖phase L k z‖ = 1 := by
  show ‖exp (-I * ((k ⬝ᵥ L.shift z.toAdd : ℝ) : ℂ))‖ = 1
  rw [Complex.norm_exp]
  simp

namespace Symmorphic
variable (G : Symmorphic L P Γ)

theorem W_inv (p : P) : G.W p⁻¹ = (G.W p)ᵀ := by
  have h1 : G.W p * G.W p⁻¹ = 1 := by rw [← map_mul, mul_inv_cancel, map_one]
  calc G.W p⁻¹ = (G.W p)ᵀ * G.W p * G.W p⁻¹ := by rw [G.orthogonal, one_mul]
    _ = _ := by rw [mul_assoc, h1, mul_one]

theorem normal : G.τ.range.Normal := by
  refine ⟨?_⟩
  rintro _ ⟨z, rfl⟩ x
  obtain ⟨y, p, rfl⟩ := G.surjective x
  obtain ⟨z', hz'⟩ := G.integral p z.toAdd
  have := G.conj p z.toAdd z' hz'
  refine ⟨.ofAdd z', ?_⟩
  rw [← this]
  have hc : ∀ a b, G.τ a * G.τ b = G.τ b * G.τ a := fun a b => by rw [← map_mul, ← map_mul, mul_comm]
  rw [this]
  have e1 : G.τ (.ofAdd y) * G.π p * G.τ z * (G.τ (.ofAdd y) * G.π p)⁻¹ =
      G.τ (.ofAdd y) * (G.π p * G.τ z * (G.π p)⁻¹) * (G.τ (.ofAdd y))⁻¹ := by
    group
  rw [e1]
  rw [show G.τ z = G.τ (.ofAdd z.toAdd) from rfl, this, hc, mul_assoc, mul_inv_cancel, mul_one]

/-- the translations. -/
abbrev Tr : Type := G.τ.range

noncomputable instance : CommGroup G.Tr :=
  { (inferInstance : Group G.Tr) with
    mul_comm := by
      rintro ⟨_, a, rfl⟩ ⟨_, b, rfl⟩
      apply Subtype.ext
      show G.τ a * G.τ b = G.τ b * G.τ a
      rw [← map_mul, ← map_mul, mul_comm] }

/-- the action of the point group on the translations. -/
noncomputable def act : P →* MulAut G.Tr :=
  haveI := G.normal
  (MulAut.conjNormal (H := G.τ.range)).comp G.π

theorem act_coe (p : P) (t : G.Tr) : (G.act p t : Γ) = G.π p * t * (G.π p)⁻¹ := by
  have := G.normal
  exact MulAut.conjNormal_apply (H := G.τ.range) (G.π p) t

/-- a translation as an element of the group of translations. -/
noncomputable def tr (z : Fin d → ℤ) : G.Tr := ⟨G.τ (.ofAdd z), _, rfl⟩

theorem tr_surj (t : G.Tr) : ∃ z, t = G.tr z := by
  obtain ⟨_, z, rfl⟩ := t
  exact ⟨z.toAdd, rfl⟩

theorem act_tr (p : P) {z z' : Fin d → ℤ} (h : G.W p *ᵥ L.shift z = L.shift z') : G.act p (G.tr z) = G.tr z' := by
  apply Subtype.ext
  rw [act_coe]
  exact G.conj p z z' h

/-- the semidirect product. -/
noncomputable def hom : G.Tr ⋊[G.act] P →* Γ :=
  SemidirectProduct.lift G.τ.range.subtype G.π (by
    intro p
    ext t
    exact G.act_coe p t)

theorem hom_apply (x) : G.hom x = x.left * G.π x.right := rfl

theorem hom_bij : Function.Bijective G.hom := by
  constructor
  · refine (injective_iff_map_eq_one _).2 fun x hx => ?_
    obtain ⟨z, hz⟩ := G.tr_surj x.left
    rw [hom_apply, hz] at hx
    obtain ⟨h1, -⟩ := (G.trivial _ _).1 hx
    have h2 : x.left = 1 := by
      rw [h1, map_one, mul_one] at hx
      rw [hz]
      exact Subtype.ext hx
    exact SemidirectProduct.ext h2 h1
  · intro x
    obtain ⟨z, p, rfl⟩ := G.surjective x
    exact ⟨⟨G.tr z, p⟩, rfl⟩

noncomputable def equiv : Γ ≃* G.Tr ⋊[G.act] P := (MulEquiv.ofBijective G.hom G.hom_bij).symm

theorem equiv_apply (z : Fin d → ℤ) (p : P) : G.equiv (G.τ (.ofAdd z) * G.π p) = ⟨G.tr z, p⟩ := by
  unfold equiv
  rw [MulEquiv.symm_apply_eq]
  rfl

theorem phase_ker (hext : ∀ i, 0 < L.extent i) {k : Fin D → ℝ} (hk : L.Allowed k) : ∀ z ∈ G.τ.ker, phase L k z = 1 := by
  intro z hz
  have h1 := (G.trivial 1 z.toAdd).1 (by rw [map_one, mul_one]; exact hz)
  choose m hm hm0 using hk
  have h2 : ∀ i, ∃ c : ℤ, (z.toAdd i : ℝ) * (k ⬝ᵥ L.basis i) = 2 * Real.pi * c := by
    intro i
    have he : (L.extent i : ℝ) ≠ 0 := by
      have := hext i
      positivity
    have h3 : (L.extent i : ℝ) * (k ⬝ᵥ L.basis i) = 2 * Real.pi * m i := by
      rw [← hm, Geometry.dims, dotProduct_smul, smul_eq_mul]
    cases hp : L.pbc i with
    | true =>
      obtain ⟨c, hc⟩ := h1.2 i hp
      refine ⟨c * m i, ?_⟩
      rw [hc]
      push_cast
      linear_combination (c : ℝ) * h3
    | false =>
      rw [hm0 i hp] at h3
      refine ⟨0, ?_⟩
      have : k ⬝ᵥ L.basis i = 0 := by
        rcases mul_eq_zero.1 (h3.trans (by simp)) with h | h
        · exact absurd h he
        · exact h
      rw [this]; simp
  choose c hc using h2
  have h3 : k ⬝ᵥ L.shift z.toAdd = 2 * Real.pi * ((∑ i, c i : ℤ) : ℝ) := by
    unfold Geometry.shift
    rw [dotProduct_sum]
    simp only [dotProduct_smul, smul_eq_mul, hc]
    push_cast
    rw [mul_sum]
  show exp (-I * ((k ⬝ᵥ L.shift z.toAdd : ℝ) : ℂ)) = 1
  rw [h3, Complex.exp_eq_one_iff]
  refine ⟨-(∑ i, c i), ?_⟩
  push_cast
  ring

/-- the character of the translations. -/
noncomputable def kappa (hext : ∀ i, 0 < L.extent i) {k : Fin D → ℝ} (hk : L.Allowed k) : G.Tr →* ℂ :=
  (QuotientGroup.lift G.τ.ker (phase L k) (G.phase_ker hext hk)).comp (QuotientGroup.quotientKerEquivRange G.τ).symm.toMonoidHom

theorem kappa_tr (hext : ∀ i, 0 < L.extent i) {k : Fin D → ℝ} (hk : L.Allowed k) (z : Fin d → ℤ) :
    G.kappa hext hk (G.tr z) = phase L k (.ofAdd z) := by
  have : G.tr z = QuotientGroup.quotientKerEquivRange G.τ (QuotientGroup.mk (.ofAdd z)) := rfl
  unfold kappa
  rw [this]
  simp only [MonoidHom.comp_apply, MulEquiv.toMonoidHom_eq_coe, MonoidHom.coe_coe, MulEquiv.symm_apply_apply]
  rfl

theorem kappa_norm (hext : ∀ i, 0 < L.extent i) {k : Fin D → ℝ} (hk : L.Allowed k) (t) : ‖G.kappa hext hk t‖ = 1 := by
  obtain ⟨z, rfl⟩ := G.tr_surj t
  rw [kappa_tr, phase_norm]

theorem kappa_moved (hext : ∀ i, 0 < L.extent i) {k : Fin D → ℝ} (hk : L.Allowed k) (p : P) (z : Fin d → ℤ) :
    G.kappa hext hk (G.act p⁻¹ (G.tr z)) = phase L (G.W p *ᵥ k) (.ofAdd z) := by
  obtain ⟨z', hz'⟩ := G.integral p⁻¹ z
  rw [G.act_tr p⁻¹ hz', kappa_tr, phase_apply, phase_apply, ← hz', W_inv, dotProduct_mulVec, vecMul_transpose]

theorem phase_eq (k k' : Fin D → ℝ) : (∀ z, phase L k (.ofAdd z) = phase L k' (.ofAdd z)) ↔ L.Equivalent k k' := by
  constructor
  · intro h i
    have h1 := h (Pi.single i 1)
    rw [phase_apply, phase_apply, Complex.exp_eq_exp_iff_exists_int] at h1
    obtain ⟨n, hn⟩ := h1
    have h2 : L.shift (Pi.single i 1) = L.basis i := by
      unfold Geometry.shift
      rw [sum_eq_single i]
      · simp
      · intro j _ hj
        simp [hj]
      · simp
    rw [h2] at hn
    refine ⟨-n, ?_⟩
    rw [sub_dotProduct]
    have hI := Complex.I_ne_zero
    have h3 : (((k ⬝ᵥ L.basis i - k' ⬝ᵥ L.basis i : ℝ)) : ℂ) = ((2 * Real.pi * ((-n : ℤ) : ℝ) : ℝ) : ℂ) := by
      apply mul_left_cancel₀ hI
      push_cast
      linear_combination -hn
    exact_mod_cast h3
  · intro h z
    choose m hm using h
    rw [phase_apply, phase_apply, Complex.exp_eq_exp_iff_exists_int]
    refine ⟨-∑ i, z i * m i, ?_⟩
    have h3 : (k - k') ⬝ᵥ L.shift z = 2 * Real.pi * ((∑ i, z i * m i : ℤ) : ℝ) := by
      unfold Geometry.shift
      rw [dotProduct_sum]
      simp only [dotProduct_smul, smul_eq_mul, hm]
      push_cast
      rw [mul_sum]
      exact sum_congr rfl fun i _ => by ring
    rw [sub_dotProduct] at h3
    have h4 : ((k ⬝ᵥ L.shift z : ℝ) : ℂ) = ((k' ⬝ᵥ L.shift z : ℝ) : ℂ) + 2 * Real.pi * ((∑ i, z i * m i : ℤ) : ℂ) := by
      rw [eq_add_of_sub_eq' h3]
      push_cast
      ring
    rw [h4]
    push_cast
    ring

theorem stab_eq (hext : ∀ i, 0 < L.extent i) {k : Fin D → ℝ} (hk : L.Allowed k) (p : P) :
    p ∈ stab G.act (G.kappa hext hk) ↔ L.Equivalent (G.W p *ᵥ k) k := by
  rw [mem_stab, ← phase_eq]
  constructor
  · intro h z
    have := h (G.tr z)
    rwa [kappa_moved, kappa_tr] at this
  · intro h t
    obtain ⟨z, rfl⟩ := G.tr_surj t
    rw [kappa_moved, kappa_tr]
    exact h z

end Symmorphic

end Verif.SpaceIrreps
