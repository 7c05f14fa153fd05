import Verif.Lemmas.LittleGroup
import Verif.Lemmas.Generic
import Verif.Lemmas.SpaceIrreps
import Mathlib.LinearAlgebra.Basis.VectorSpace

/-! Every irreducible character of a semidirect product with a commutative group is induced from a little group. -/

namespace Verif.Irrep
open Finset

/-- a class function which does not vanish has an irreducible character it is not orthogonal to. -/
theorem exists_irr {H : Type} [Group H] [Fintype H] (F : H → ℂ) (hF : IsClassFn F) (h0 : F ≠ 0) :
    ∃ ψ, IsIrrChar ψ ∧ ∑ l, F l * (starRingEnd ℂ) (ψ l) ≠ 0 := by
  classical
  by_contra hcon
  push Not at hcon
  have h1 : ∀ φ : {φ : H → ℂ // Spherical φ}, ∑ l, F l * (starRingEnd ℂ) (φ.1 l) = 0 := by
    intro φ
    obtain ⟨d, χ, hd, hχ, hφ⟩ := φ.2.irrChar
    have h2 := hcon χ hχ
    simp only [hφ, map_mul, map_natCast] at h2
    have h3 : (d : ℂ) * ∑ l, F l * (starRingEnd ℂ) (φ.1 l) = 0 := by
      rw [mul_sum, ← h2]
      exact sum_congr rfl fun l _ => by ring
    exact (mul_eq_zero.1 h3).resolve_left (Nat.cast_ne_zero.2 (by omega))
  have h2 : ∀ E ∈ Submodule.span ℂ (Set.range fun φ : {φ : H → ℂ // Spherical φ} => φ.1), ∑ l, F l * (starRingEnd ℂ) (E l) = 0 := by
    intro E hE
    induction hE using Submodule.span_induction with
    | mem x hx =>
      obtain ⟨φ, rfl⟩ := hx
      exact h1 φ
    | zero => simp
    | add x y _ _ hx hy =>
      simp only [Pi.add_apply, map_add, mul_add, sum_add_distrib, hx, hy, add_zero]
    | smul c x _ hx =>
      have : ∑ l, F l * (starRingEnd ℂ) ((c • x) l) = (starRingEnd ℂ) c * ∑ l, F l * (starRingEnd ℂ) (x l) := by
        rw [mul_sum]
        refine sum_congr rfl fun l _ => ?_
        rw [Pi.smul_apply, smul_eq_mul, map_mul]
        ring
      rw [this, hx, mul_zero]
  have h3 := h2 F (spherical_span F hF)
  refine h0 (funext fun l => ?_)
  have h4 : ∀ x : ℂ, x * (starRingEnd ℂ) x = ((Complex.normSq x : ℝ) : ℂ) := Complex.mul_conj
  simp only [h4, ← Complex.ofReal_sum] at h3
  have h5 := (sum_eq_zero_iff_of_nonneg fun l _ => Complex.normSq_nonneg (F l)).1 (Complex.ofReal_eq_zero.1 h3) l (mem_univ _)
  exact Complex.normSq_eq_zero.1 h5

/-- irreducible characters of commutative groups are homomorphisms. -/
theorem comm_hom {N : Type} [CommGroup N] [Fintype N] {χ : N → ℂ} (h : IsIrrChar χ) : ∃ κ : N →* ℂ, (∀ t, ‖κ t‖ = 1) ∧
    ∃ d : Nat, 0 < d ∧ ∀ t, χ t = d * κ t := by
  obtain ⟨d, hd, h1, -, hs⟩ := h.facts
  have hd0 : (d : ℂ) ≠ 0 := Nat.cast_ne_zero.2 (by omega)
  have hm : ∀ a b, χ (a * b) / d = χ a / d * (χ b / d) := by
    intro a b
    have := hs.eqn a b
    have e : ∀ c, c * b * c⁻¹ = b := fun c => by rw [mul_comm c b, mul_assoc, mul_inv_cancel, mul_one]
    simp only [e, sum_const, card_univ, nsmul_eq_mul] at this
    exact mul_left_cancel₀ card_ne this
  let κ : N →* ℂ := { toFun := fun t => χ t / d, map_one' := hs.one, map_mul' := hm }
  refine ⟨κ, fun t => ?_, d, hd, fun t => (mul_div_cancel₀ _ hd0).symm⟩
  have h2 : κ t ^ Fintype.card N = 1 := by rw [← map_pow, pow_card_eq_one, map_one]
  exact Complex.norm_eq_one_of_pow_eq_one h2 Fintype.card_ne_zero

variable {N P : Type} [CommGroup N] [Group P] [Fintype N] [Fintype P] [DecidableEq P] (φ : P →* MulAut N)

/-- scalar product of a class function with an induced character. -/
theorem frobenius (κ : N →* ℂ) (K : Subgroup P) (ψ : K → ℂ) (X : N → P → ℂ)
    (hX : ∀ p t g, X (φ p t) (p * g * p⁻¹) = X t g) [Fintype K] :
    ∑ t, ∑ g, X t g * (starRingEnd ℂ) (induce φ κ K ψ t g) =
      (Fintype.card P : ℂ) / (Fintype.card K : ℂ) * ∑ l : K, (∑ t, X t l * (starRingEnd ℂ) (κ t)) * (starRingEnd ℂ) (ψ l) := by
  classical
  have e1 : ∀ t g, X t g * (starRingEnd ℂ) (induce φ κ K ψ t g) =
      ∑ p, X t g * ((starRingEnd ℂ) (κ (φ p⁻¹ t)) * ((starRingEnd ℂ) (extend K ψ (p⁻¹ * g * p)) / (Fintype.card K : ℂ))) := by
    intro t g
    unfold induce
    rw [map_sum, mul_sum]
    refine sum_congr rfl fun p _ => ?_
    rw [map_mul, map_div₀, map_natCast, Nat.card_eq_fintype_card]
  have e2 : ∀ p, ∑ t, ∑ g, X t g * ((starRingEnd ℂ) (κ (φ p⁻¹ t)) * ((starRingEnd ℂ) (extend K ψ (p⁻¹ * g * p)) / (Fintype.card K : ℂ))) =
      ∑ t, ∑ g, X t g * ((starRingEnd ℂ) (κ t) * ((starRingEnd ℂ) (extend K ψ g) / (Fintype.card K : ℂ))) := by
    intro p
    symm
    refine Fintype.sum_equiv (φ p).toEquiv _ _ fun t => ?_
    refine Fintype.sum_equiv (MulAut.conj p).toEquiv _ _ fun g => ?_
    simp only [MulEquiv.toEquiv_eq_coe, MulEquiv.coe_toEquiv, MulAut.conj_apply, hX]
    congr 2
    · rw [← MulAut.mul_apply, ← map_mul, inv_mul_cancel, map_one, MulAut.one_apply]
    · congr 3
      group
  simp only [e1]
  rw [sum_congr rfl fun t _ => sum_comm, sum_comm]
  simp only [e2]
  rw [sum_const, card_univ, nsmul_eq_mul, div_eq_mul_inv, mul_assoc]
  congr 1
  rw [sum_comm]
  have e3 : ∀ g, ∑ t, X t g * ((starRingEnd ℂ) (κ t) * ((starRingEnd ℂ) (extend K ψ g) / (Fintype.card K : ℂ))) =
      (Fintype.card K : ℂ)⁻¹ * ((∑ t, X t g * (starRingEnd ℂ) (κ t)) * (starRingEnd ℂ) (extend K ψ g)) := by
    intro g
    rw [sum_mul, mul_sum]
    exact sum_congr rfl fun t _ => by ring
  simp only [e3]
  rw [← mul_sum]
  congr 1
  rw [← sum_filter_add_sum_filter_not univ (· ∈ K)]
  have e4 : ∑ g ∈ univ.filter (fun g => ¬g ∈ K), (∑ t, X t g * (starRingEnd ℂ) (κ t)) * (starRingEnd ℂ) (extend K ψ g) = 0 := by
    refine sum_eq_zero fun g hg => ?_
    have : extend K ψ g = 0 := dif_neg (mem_filter.1 hg).2
    rw [this, map_zero, mul_zero]
  rw [e4, add_zero]
  rw [sum_subtype (univ.filter (· ∈ K)) (p := (· ∈ K)) (fun g => by simp)]
  refine sum_congr rfl fun l _ => ?_
  have : extend K ψ l = ψ l := dif_pos l.2
  rw [this]

/-- every irreducible character of the semidirect product is induced. -/
theorem complete (χ : N ⋊[φ] P → ℂ) (hχ : IsIrrChar χ) : ∃ κ : N →* ℂ, (∀ t, ‖κ t‖ = 1) ∧ ∃ ψ : stab φ κ → ℂ, IsIrrChar ψ ∧
    ∀ x, χ x = induce φ κ (stab φ κ) ψ x.left x.right := by
  classical
  have : Fintype (N ⋊[φ] P) := Fintype.ofEquiv (N × P) SemidirectProduct.equivProd.symm
  have hcl : ∀ l m, χ (m * l * m⁻¹) = χ l := by
    obtain ⟨V, i1, i2, i3, ρ, -, hψ⟩ := hχ
    intro l m
    rw [hψ, hψ]
    exact Representation.char_conj ρ l m
  have hX : ∀ p t g, χ ⟨φ p t, p * g * p⁻¹⟩ = χ ⟨t, g⟩ := by
    intro p t g
    rw [← hcl ⟨t, g⟩ ⟨1, p⟩]
    congr 1
    refine SemidirectProduct.ext ?_ ?_
    · simp
    · simp
  obtain ⟨d, hd, hd1, -⟩ := hχ.facts
  have hd0 : (d : ℂ) ≠ 0 := Nat.cast_ne_zero.2 (by omega)
  obtain ⟨κ0, hκ0, hne⟩ := exists_irr (fun t : N => χ ⟨t, 1⟩) (fun h x => by rw [mul_comm h x, mul_assoc, mul_inv_cancel, mul_one]) (by
    intro h
    have := congrFun h 1
    exact hd0 (hd1.symm.trans this))
  obtain ⟨κ, hκ, e, he, hκe⟩ := comm_hom hκ0
  have hne' : ∑ t, χ ⟨t, 1⟩ * (starRingEnd ℂ) (κ t) ≠ 0 := by
    intro h
    apply hne
    simp only [hκe, map_mul, map_natCast]
    have : ∑ t, χ ⟨t, 1⟩ * ((e : ℂ) * (starRingEnd ℂ) (κ t)) = (e : ℂ) * ∑ t, χ ⟨t, 1⟩ * (starRingEnd ℂ) (κ t) := by
      rw [mul_sum]
      exact sum_congr rfl fun t _ => by ring
    rw [this, h, mul_zero]
  have : Fintype (stab φ κ) := Fintype.ofFinite _
  obtain ⟨ψ, hψ, hψne⟩ := exists_irr (fun l : stab φ κ => ∑ t, χ ⟨t, l⟩ * (starRingEnd ℂ) (κ t)) (by
    intro m l
    symm
    refine Fintype.sum_equiv (φ m.1).toEquiv _ _ fun t => ?_
    simp only [MulEquiv.toEquiv_eq_coe, MulEquiv.coe_toEquiv]
    rw [show ((m * l * m⁻¹ : stab φ κ) : P) = m.1 * l.1 * m.1⁻¹ from rfl, hX]
    congr 2
    have h1 := (mem_stab φ κ m.1).1 m.2 (φ m.1 t)
    rw [← h1, ← MulAut.mul_apply, ← map_mul, inv_mul_cancel, map_one, MulAut.one_apply]) (by
    intro h
    exact hne' (congrFun h 1))
  refine ⟨κ, hκ, ψ, hψ, ?_⟩
  have hI := irr_induce φ κ hκ ψ hψ
  by_contra hcon
  have hne2 : χ ≠ fun x => induce φ κ (stab φ κ) ψ x.left x.right := fun h => hcon (congrFun h)
  have h1 := hχ.orthogonal hI hne2
  have h2 := frobenius φ κ (stab φ κ) ψ (fun t g => χ ⟨t, g⟩) hX
  have h3 : ∑ t, ∑ g, χ ⟨t, g⟩ * (starRingEnd ℂ) (induce φ κ (stab φ κ) ψ t g) = 0 := by
    rw [← Fintype.sum_prod_type' (f := fun t g => χ ⟨t, g⟩ * (starRingEnd ℂ) (induce φ κ (stab φ κ) ψ t g)), ← h1]
    refine Fintype.sum_equiv SemidirectProduct.equivProd.symm _ _ fun x => ?_
    rw [mul_comm]
    rfl
  rw [h3] at h2
  have hc : (Fintype.card (stab φ κ) : ℂ) ≠ 0 := card_ne
  have hP : (Fintype.card P : ℂ) ≠ 0 := card_ne
  exact mul_ne_zero (div_ne_zero hP hc) hψne h2.symm

end Verif.Irrep

namespace Verif.SpaceIrreps
open Verif.Irrep Matrix Finset
open Complex (exp I)

variable {d D : Nat} {L : Geometry d D} {P Γ : Type} [Group P] [Group Γ]

theorem exists_vector (hb : LinearIndependent ℝ L.basis) (θ : Fin d → ℝ) : ∃ k : Fin D → ℝ, ∀ i, k ⬝ᵥ L.basis i = θ i := by
  obtain ⟨f, hf⟩ := LinearMap.exists_extend ((Module.Basis.span hb).constr ℝ θ)
  refine ⟨fun j => f (Pi.single j 1), fun i => ?_⟩
  have h1 : f (L.basis i) = θ i := by
    have h2 := congrArg (fun g => g (Module.Basis.span hb i)) hf
    simp only [LinearMap.comp_apply, Module.Basis.constr_basis, Submodule.subtype_apply] at h2
    rwa [Module.Basis.span_apply] at h2
  rw [← h1]
  conv_rhs => rw [← Finset.univ_sum_single (L.basis i)]
  rw [map_sum, dotProduct]
  refine sum_congr rfl fun j _ => ?_
  have : (Pi.single j (L.basis i j) : Fin D → ℝ) = L.basis i j • Pi.single j 1 := by
    rw [← Pi.single_smul, smul_eq_mul, mul_one]
  rw [this, map_smul, smul_eq_mul, mul_comm]

theorem shift_single (i : Fin d) (c : ℤ) : L.shift (Pi.single i c) = (c : ℝ) • L.basis i := by
  unfold Geometry.shift
  rw [sum_eq_single i]
  · simp
  · intro j _ hj
    simp [hj]
  · simp

namespace Symmorphic
variable (G : Symmorphic L P Γ)

theorem allowed_of_ker (hp : ∀ i, L.pbc i = true) (k : Fin D → ℝ) (h : ∀ z ∈ G.τ.ker, phase L k z = 1) : L.Allowed k := by
  intro i
  have h1 := h (.ofAdd (Pi.single i (L.extent i : ℤ))) (by
    have := (G.trivial 1 (Pi.single i (L.extent i : ℤ))).2 ⟨rfl, fun j _ => by
      by_cases hj : j = i
      · subst hj; simp
      · simp [hj]⟩
    rwa [map_one, mul_one] at this)
  rw [phase_apply, shift_single, Complex.exp_eq_one_iff] at h1
  obtain ⟨n, hn⟩ := h1
  refine ⟨-n, ?_, by simp [hp]⟩
  have h3 : ((k ⬝ᵥ L.dims i : ℝ) : ℂ) = ((2 * Real.pi * ((-n : ℤ) : ℝ) : ℝ) : ℂ) := by
    apply mul_left_cancel₀ Complex.I_ne_zero
    rw [Geometry.dims]
    push_cast at hn ⊢
    linear_combination -hn
  exact_mod_cast h3

theorem moved_ker (k : Fin D → ℝ) (h : ∀ z ∈ G.τ.ker, phase L k z = 1) (p : P) : ∀ z ∈ G.τ.ker, phase L (G.W p *ᵥ k) z = 1 := by
  intro z hz
  obtain ⟨z', hz'⟩ := G.integral p⁻¹ z.toAdd
  have h1 := h (.ofAdd z') (by
    rw [MonoidHom.mem_ker, ← G.conj p⁻¹ z.toAdd z' hz']
    rw [MonoidHom.mem_ker] at hz
    rw [show G.τ (.ofAdd z.toAdd) = 1 from hz, mul_one, mul_inv_cancel])
  rw [phase_apply, ← hz', W_inv, dotProduct_mulVec, vecMul_transpose] at h1
  exact h1

/-- every character of the translations belongs to an allowed wave vector. -/
theorem exists_wave (hb : LinearIndependent ℝ L.basis) (κ : G.Tr →* ℂ) (hκ : ∀ t, ‖κ t‖ = 1) :
    ∃ k : Fin D → ℝ, ∀ z, κ (G.tr z) = phase L k (.ofAdd z) := by
  have h1 : ∀ i, ∃ θ : ℝ, κ (G.tr (Pi.single i 1)) = exp (-I * (θ : ℂ)) := by
    intro i
    obtain ⟨θ, hθ⟩ := (Complex.norm_eq_one_iff _).1 (hκ (G.tr (Pi.single i 1)))
    exact ⟨-θ, by rw [← hθ]; congr 1; push_cast; ring⟩
  choose θ hθ using h1
  obtain ⟨k, hk⟩ := exists_vector hb θ
  refine ⟨k, fun z => ?_⟩
  let κ0 : Multiplicative (Fin d → ℤ) →* ℂ := κ.comp G.τ.rangeRestrict
  have e0 : ∀ z, κ0 (.ofAdd z) = κ (G.tr z) := fun z => rfl
  have hz : Multiplicative.ofAdd z = ∏ i, (Multiplicative.ofAdd (Pi.single i 1 : Fin d → ℤ)) ^ z i := by
    have e : z = ∑ i, z i • (Pi.single i 1 : Fin d → ℤ) := by
      funext j
      simp [Finset.sum_apply, Pi.single_apply]
    conv_lhs => rw [e, ofAdd_sum]
    rfl
  rw [← e0, hz, map_prod, map_prod]
  refine prod_congr rfl fun i _ => ?_
  have hu : ∀ (f : Multiplicative (Fin d → ℤ) →* ℂ) x (n : ℤ), f (x ^ n) = f x ^ n := fun f x n => map_zpow' f (fun y => by
    have : f y * f y⁻¹ = 1 := by rw [← map_mul, mul_inv_cancel, map_one]
    exact eq_inv_of_mul_eq_one_right this) x n
  rw [hu, hu, e0, hθ, phase_apply, shift_single, Int.cast_one, one_smul, hk]

end Symmorphic

end Verif.SpaceIrreps
