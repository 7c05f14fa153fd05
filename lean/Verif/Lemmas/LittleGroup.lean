import Verif.Lemmas.Isotypic
import Mathlib.GroupTheory.SemidirectProduct
import Mathlib.RepresentationTheory.Invariants
import Mathlib.Algebra.DirectSum.LinearMap

/-! Irreducible representations of a semidirect product with a commutative group, from those of the little groups. -/

namespace Verif.Irrep
open Finset

/-- a representation whose character has norm one is irreducible. -/
theorem irreducible_of_norm {G : Type} [Group G] [Fintype G] {V : Type} [AddCommGroup V] [Module ℂ V] [FiniteDimensional ℂ V]
    (ρ : Representation ℂ G V) (h : ∑ g, ρ.character g * ρ.character g⁻¹ = (Fintype.card G : ℂ)) : ρ.IsIrreducible := by
  classical
  have hc : (Nat.card G : ℂ) ≠ 0 := by rw [Nat.card_eq_fintype_card]; exact card_ne
  haveI : Invertible (Nat.card G : ℂ) := invertibleOfNonzero hc
  have h1 := Representation.card_inv_mul_sum_char_mul_char_eq_finrank ρ ρ
  rw [h, ← Nat.card_eq_fintype_card, inv_mul_cancel₀ hc] at h1
  have hfin : Module.finrank ℂ (Representation.IntertwiningMap ρ ρ) = 1 := by exact_mod_cast h1.symm
  have hV : (Module.finrank ℂ V : ℂ) ≠ 0 := by
    intro h0
    have h2 : Module.finrank ℂ V = 0 := by exact_mod_cast h0
    have h3 : Subsingleton V := Module.finrank_zero_iff.1 h2
    have h4 : ∀ g, ρ.character g = 0 := by
      intro g
      unfold Representation.character
      rw [show ρ g = 0 from Subsingleton.elim _ _, map_zero]
    simp only [h4, mul_zero, sum_const_zero] at h
    exact card_ne h.symm
  have hnt : Nontrivial V := by
    by_contra hn
    rw [not_nontrivial_iff_subsingleton] at hn
    exact hV (by rw [Module.finrank_zero_of_subsingleton]; simp)
  -- every commuting map is a multiple of the identity
  have hscal : ∀ A : V →ₗ[ℂ] V, (∀ g, A ∘ₗ ρ g = ρ g ∘ₗ A) → ∃ c : ℂ, A = c • 1 := by
    intro A hA
    let one : Representation.IntertwiningMap ρ ρ := ⟨LinearMap.id, fun g => rfl⟩
    have hone : one ≠ 0 := by
      intro h0
      obtain ⟨x, hx⟩ := exists_ne (0 : V)
      exact hx (congrArg (fun f : Representation.IntertwiningMap ρ ρ => f x) h0)
    obtain ⟨c, hcA⟩ := (finrank_eq_one_iff_of_nonzero' one hone).1 hfin ⟨A, hA⟩
    refine ⟨c, ?_⟩
    ext x
    exact (congrArg (fun f : Representation.IntertwiningMap ρ ρ => f x) hcA).symm
  refine { exists_pair_ne := ⟨⊥, ⊤, fun hbt => ?_⟩, eq_bot_or_eq_top := fun W => ?_ }
  · have h2 := congrArg Subrepresentation.toSubmodule hbt
    change (⊥ : Submodule ℂ V) = ⊤ at h2
    exact bot_ne_top h2
  · by_cases hW : W.toSubmodule = ⊥
    · left
      exact Subrepresentation.toSubmodule_injective hW
    · right
      apply Subrepresentation.toSubmodule_injective
      change W.toSubmodule = ⊤
      obtain ⟨K, hK⟩ := Submodule.exists_isCompl W.toSubmodule
      let π : V →ₗ[ℂ] V := W.toSubmodule.subtype ∘ₗ W.toSubmodule.linearProjOfIsCompl K hK
      have hπ : ∀ x, π x ∈ W.toSubmodule := fun x => (W.toSubmodule.linearProjOfIsCompl K hK x).2
      have hπW : ∀ x ∈ W.toSubmodule, π x = x := by
        intro x hx
        have := Submodule.linearProjOfIsCompl_apply_left hK ⟨x, hx⟩
        exact congrArg Subtype.val this
      let A : V →ₗ[ℂ] V := ∑ g, ρ g ∘ₗ π ∘ₗ ρ g⁻¹
      have hA : ∀ h, A ∘ₗ ρ h = ρ h ∘ₗ A := by
        intro h
        ext x
        simp only [A, LinearMap.comp_apply, LinearMap.sum_apply, map_sum]
        refine Fintype.sum_equiv (Equiv.mulLeft h⁻¹) _ _ fun g => ?_
        simp only [Equiv.coe_mulLeft, ← Module.End.mul_apply, ← map_mul, mul_inv_rev, inv_inv]
        have hh : ρ h * ρ (h⁻¹ * g) = ρ g := by rw [← map_mul, mul_inv_cancel_left]
        rw [← mul_assoc (ρ h), hh]
      obtain ⟨c, hcA⟩ := hscal A hA
      have hAW : ∀ x ∈ W.toSubmodule, A x = (Fintype.card G : ℂ) • x := by
        intro x hx
        simp only [A, LinearMap.sum_apply, LinearMap.comp_apply]
        have : ∀ g, ρ g (π (ρ g⁻¹ x)) = x := by
          intro g
          rw [hπW _ (W.apply_mem_toSubmodule g⁻¹ hx), ← Module.End.mul_apply, ← map_mul, mul_inv_cancel, map_one]
          rfl
        simp only [this, sum_const, card_univ]
        rw [Nat.cast_smul_eq_nsmul]
      obtain ⟨x, hx, hx0⟩ := Submodule.exists_mem_ne_zero_of_ne_bot hW
      have hcc : c = (Fintype.card G : ℂ) := by
        have h2 := hAW x hx
        rw [hcA] at h2
        have h3 : (c - (Fintype.card G : ℂ)) • x = 0 := by
          rw [sub_smul, ← h2]
          simp
        rcases smul_eq_zero.1 h3 with h4 | h4
        · exact sub_eq_zero.1 h4
        · exact absurd h4 hx0
      rw [eq_top_iff]
      intro y _
      have h2 : A y ∈ W.toSubmodule := by
        simp only [A, LinearMap.sum_apply, LinearMap.comp_apply]
        exact Submodule.sum_mem _ fun g _ => W.apply_mem_toSubmodule g (hπ _)
      rw [hcA, hcc] at h2
      have h3 := W.toSubmodule.smul_mem ((Fintype.card G : ℂ)⁻¹) h2
      rwa [LinearMap.smul_apply, Module.End.one_apply, smul_smul, inv_mul_cancel₀ card_ne, one_smul] at h3

/-- trace of a map that permutes the blocks. -/
theorem trace_blocks {P V : Type} [Fintype P] [DecidableEq P] [AddCommGroup V] [Module ℂ V] [FiniteDimensional ℂ V] (a : P → ℂ) (s : P → P)
    (B : V →ₗ[ℂ] V) (T : (P → V) →ₗ[ℂ] (P → V)) (hT : ∀ f p, T f p = a p • B (f (s p))) :
    LinearMap.trace ℂ _ T = ∑ p, if s p = p then a p * LinearMap.trace ℂ V B else 0 := by
  have h1 : T = ∑ p, (LinearMap.single ℂ (fun _ => V) p) ∘ₗ ((a p • B) ∘ₗ LinearMap.proj (s p)) := by
    refine LinearMap.ext fun f => ?_
    funext q
    rw [hT, LinearMap.sum_apply, Finset.sum_apply]
    simp only [LinearMap.comp_apply, LinearMap.single_apply, LinearMap.proj_apply, LinearMap.smul_apply]
    rw [sum_eq_single q]
    · simp
    · intro p _ hp
      rw [Pi.single_eq_of_ne (Ne.symm hp)]
    · simp
  rw [h1, map_sum]
  refine sum_congr rfl fun p _ => ?_
  rw [LinearMap.trace_comp_comm']
  by_cases hp : s p = p
  · rw [if_pos hp]
    have : ((a p • B) ∘ₗ LinearMap.proj (s p)) ∘ₗ (LinearMap.single ℂ (fun _ => V) p) = a p • B := by
      ext x
      simp [hp]
    rw [this, map_smul, smul_eq_mul]
  · rw [if_neg hp]
    have : ((a p • B) ∘ₗ LinearMap.proj (s p)) ∘ₗ (LinearMap.single ℂ (fun _ => V) p) = 0 := by
      ext x
      simp [hp]
    rw [this, map_zero]

/-- trace on the range of a projection. -/
theorem trace_proj {U : Type} [AddCommGroup U] [Module ℂ U] [FiniteDimensional ℂ U] (W : Submodule ℂ U) (Q A : U →ₗ[ℂ] U)
    (hQ : ∀ x, Q x ∈ W) (hQW : ∀ x ∈ W, Q x = x) (hA : ∀ x ∈ W, A x ∈ W) :
    LinearMap.trace ℂ W (A.restrict hA) = LinearMap.trace ℂ U (A ∘ₗ Q) := by
  let Q' : U →ₗ[ℂ] W := Q.codRestrict W hQ
  have h1 : A ∘ₗ Q = (A ∘ₗ W.subtype) ∘ₗ Q' := by ext x; rfl
  rw [h1, LinearMap.trace_comp_comm']
  congr 1
  ext x
  simp only [LinearMap.coe_restrict_apply, LinearMap.comp_apply, Submodule.subtype_apply, Q', LinearMap.codRestrict_apply]
  exact (hQW _ (hA _ x.2)).symm

section Mackey
variable {N P : Type} [CommGroup N] [Group P] [Fintype N] [Fintype P] [DecidableEq P] (φ : P →* MulAut N) (κ : N →* ℂ)

/-- elements of the point group leaving the character `κ` of the translations invariant. -/
def stab : Subgroup P where
  carrier := {p | ∀ t, κ (φ p⁻¹ t) = κ t}
  one_mem' := by
    intro t
    rw [inv_one, map_one, MulAut.one_apply]
  mul_mem' := by
    intro a b ha hb t
    simp only [Set.mem_ofPred_eq] at ha hb ⊢
    rw [mul_inv_rev, map_mul, MulAut.mul_apply, hb, ha]
  inv_mem' := by
    intro a ha t
    simp only [Set.mem_ofPred_eq] at ha ⊢
    rw [← ha (φ a⁻¹⁻¹ t), ← MulAut.mul_apply, ← map_mul, inv_inv, inv_mul_cancel, map_one, MulAut.one_apply]

omit [Fintype N] [Fintype P] [DecidableEq P] in
theorem mem_stab (p : P) : p ∈ stab φ κ ↔ ∀ t, κ (φ p⁻¹ t) = κ t := Iff.rfl

variable {V : Type} [AddCommGroup V] [Module ℂ V] [FiniteDimensional ℂ V] (σ : Representation ℂ (stab φ κ) V)

/-- action of the space group on functions on the point group. -/
def actG (x : N ⋊[φ] P) : (P → V) →ₗ[ℂ] (P → V) where
  toFun f p := κ (φ p⁻¹ x.left) • f (x.right⁻¹ * p)
  map_add' f g := by funext p; simp
  map_smul' c f := by funext p; exact smul_comm _ _ _

/-- action of the little group. -/
def actL : Representation ℂ (stab φ κ) (P → V) where
  toFun l := {
    toFun := fun f p => σ l (f (p * l))
    map_add' := fun f g => by funext p; simp
    map_smul' := fun c f => by funext p; simp }
  map_one' := by
    ext f p
    simp
  map_mul' a b := by
    refine LinearMap.ext fun f => ?_
    funext p
    simp [mul_assoc]

theorem actG_mul (x y : N ⋊[φ] P) : actG (V := V) φ κ (x * y) = actG φ κ x ∘ₗ actG φ κ y := by
  refine LinearMap.ext fun f => ?_
  funext p
  simp only [actG, LinearMap.coe_mk, AddHom.coe_mk, LinearMap.comp_apply, SemidirectProduct.mul_left, SemidirectProduct.mul_right,
    map_mul, mul_inv_rev, smul_smul]
  congr 1
  · congr 1
    rw [inv_inv]
    rfl
  · rw [mul_assoc]

theorem actG_comm (x : N ⋊[φ] P) (l : stab φ κ) : actG φ κ x ∘ₗ actL φ κ σ l = actL φ κ σ l ∘ₗ actG φ κ x := by
  refine LinearMap.ext fun f => ?_
  funext p
  simp only [actG, actL, LinearMap.coe_mk, AddHom.coe_mk, LinearMap.comp_apply, MonoidHom.coe_mk, OneHom.coe_mk, map_smul]
  rw [mul_inv_rev, map_mul, MulAut.mul_apply, l.2, mul_assoc]

/-- the induced representation. -/
noncomputable def induced : Representation ℂ (N ⋊[φ] P) (actL φ κ σ).invariants where
  toFun x := (actG φ κ x).restrict (p := (actL φ κ σ).invariants) (q := (actL φ κ σ).invariants) fun f hf l => by
    have := congrArg (fun F => F f) (actG_comm φ κ σ x l)
    simp only [LinearMap.comp_apply] at this
    rw [← this, hf l]
  map_one' := by
    refine LinearMap.ext fun f => Subtype.ext ?_
    funext p
    simp [actG]
  map_mul' x y := by
    refine LinearMap.ext fun f => Subtype.ext ?_
    exact congrArg (fun F => F f.1) (actG_mul φ κ x y)

/-- the character of the little group, zero outside. -/
noncomputable def extend {P : Type} [Group P] (L : Subgroup P) (ψ : L → ℂ) (p : P) : ℂ := by
  classical
  exact if h : p ∈ L then ψ ⟨p, h⟩ else 0

/-- the formula for the characters of the space group. -/
noncomputable def induce (L : Subgroup P) (ψ : L → ℂ) (t : N) (g : P) : ℂ :=
  ∑ p, κ (φ p⁻¹ t) * (extend L ψ (p⁻¹ * g * p) / (Nat.card L : ℂ))

theorem trace_induced (x : N ⋊[φ] P) :
    LinearMap.trace ℂ _ (induced φ κ σ x) = induce φ κ (stab φ κ) (fun l => LinearMap.trace ℂ V (σ l)) x.left x.right := by
  classical
  have : Fintype (stab φ κ) := Fintype.ofFinite _
  have hc : (Fintype.card (stab φ κ) : ℂ) ≠ 0 := card_ne
  let Q : (P → V) →ₗ[ℂ] (P → V) := ((Fintype.card (stab φ κ) : ℂ)⁻¹) • ∑ l, actL φ κ σ l
  have hQ : ∀ f, Q f ∈ (actL φ κ σ).invariants := by
    intro f l
    simp only [Q, LinearMap.smul_apply, LinearMap.sum_apply, map_smul, map_sum]
    congr 1
    refine Fintype.sum_equiv (Equiv.mulLeft l) _ _ fun m => ?_
    rw [Equiv.coe_mulLeft, map_mul]
    rfl
  have hQW : ∀ f ∈ (actL φ κ σ).invariants, Q f = f := by
    intro f hf
    simp only [Q, LinearMap.smul_apply, LinearMap.sum_apply]
    rw [sum_congr rfl fun l _ => hf l, sum_const, card_univ, ← Nat.cast_smul_eq_nsmul ℂ, smul_smul, inv_mul_cancel₀ hc, one_smul]
  have h1 := trace_proj (actL φ κ σ).invariants Q (actG φ κ x) hQ hQW fun f hf l => by
    have := congrArg (fun F => F f) (actG_comm φ κ σ x l)
    simp only [LinearMap.comp_apply] at this
    rw [← this, hf l]
  refine h1.trans ?_
  have h2 : actG φ κ x ∘ₗ Q = ((Fintype.card (stab φ κ) : ℂ)⁻¹) • ∑ l, actG φ κ x ∘ₗ actL φ κ σ l := by
    refine LinearMap.ext fun f => ?_
    simp only [Q, LinearMap.comp_apply, LinearMap.smul_apply, LinearMap.sum_apply, map_smul, map_sum]
  have h3 : ∀ l : stab φ κ, LinearMap.trace ℂ _ (actG φ κ x ∘ₗ actL φ κ σ l) =
      ∑ p, if x.right⁻¹ * p * l = p then κ (φ p⁻¹ x.left) * LinearMap.trace ℂ V (σ l) else 0 := by
    intro l
    exact trace_blocks (fun p => κ (φ p⁻¹ x.left)) (fun p => x.right⁻¹ * p * l) (σ l) _ fun f p => rfl
  rw [h2, map_smul, map_sum, smul_eq_mul, sum_congr rfl fun l _ => h3 l, sum_comm, mul_sum]
  unfold induce
  refine sum_congr rfl fun p _ => ?_
  have h4 : ∀ l : stab φ κ, x.right⁻¹ * p * l = p ↔ (l : P) = p⁻¹ * x.right * p := by
    intro l
    constructor
    · intro h
      have h' : p = x.right⁻¹ * p * l := h.symm
      calc (l : P) = p⁻¹ * x.right * (x.right⁻¹ * p * l) := by group
        _ = _ := by rw [h]
    · intro h
      rw [h]
      group
  unfold extend
  by_cases hp : p⁻¹ * x.right * p ∈ stab φ κ
  · rw [dif_pos hp, sum_eq_single ⟨_, hp⟩]
    · rw [if_pos ((h4 _).2 rfl), Nat.card_eq_fintype_card]
      ring
    · intro l _ hl
      rw [if_neg fun h => hl (Subtype.ext ((h4 l).1 h))]
    · simp
  · rw [dif_neg hp, sum_eq_zero fun l _ => if_neg fun h => hp (by rw [← (h4 l).1 h]; exact l.2)]
    simp

omit [Fintype P] [DecidableEq P] in
/-- orthogonality of characters of the translations. -/
theorem sum_kappa (κ₁ κ₂ : N →* ℂ) (h1 : ∀ t, ‖κ₁ t‖ = 1) (h2 : ∀ t, ‖κ₂ t‖ = 1) :
    ((∀ t, κ₁ t = κ₂ t) → ∑ t, κ₁ t * (starRingEnd ℂ) (κ₂ t) = (Fintype.card N : ℂ)) ∧
    ((¬∀ t, κ₁ t = κ₂ t) → ∑ t, κ₁ t * (starRingEnd ℂ) (κ₂ t) = 0) := by
  have hn : ∀ t, κ₂ t * (starRingEnd ℂ) (κ₂ t) = 1 := by
    intro t
    rw [Complex.mul_conj, Complex.normSq_eq_norm_sq, h2]
    simp
  constructor
  · intro h
    simp only [h, hn, sum_const, card_univ, nsmul_eq_mul, mul_one]
  · intro h
    push Not at h
    obtain ⟨s, hs⟩ := h
    have h3 : (κ₁ s * (starRingEnd ℂ) (κ₂ s)) * ∑ t, κ₁ t * (starRingEnd ℂ) (κ₂ t) = ∑ t, κ₁ t * (starRingEnd ℂ) (κ₂ t) := by
      rw [mul_sum]
      refine Fintype.sum_equiv (Equiv.mulLeft s) _ _ fun t => ?_
      simp only [Equiv.coe_mulLeft, map_mul]
      ring
    have h4 : (κ₁ s * (starRingEnd ℂ) (κ₂ s) - 1) * ∑ t, κ₁ t * (starRingEnd ℂ) (κ₂ t) = 0 := by
      rw [sub_mul, h3, one_mul, sub_self]
    rcases mul_eq_zero.1 h4 with h5 | h5
    · exfalso
      apply hs
      have h6 : κ₁ s * (starRingEnd ℂ) (κ₂ s) = 1 := sub_eq_zero.1 h5
      calc κ₁ s = κ₁ s * (κ₂ s * (starRingEnd ℂ) (κ₂ s)) := by rw [hn, mul_one]
        _ = κ₁ s * (starRingEnd ℂ) (κ₂ s) * κ₂ s := by ring
        _ = κ₂ s := by rw [h6, one_mul]
    · exact h5

/-- the character seen after applying `p`. -/
def moved (p : P) : N →* ℂ := κ.comp (φ p⁻¹).toMonoidHom

omit [Fintype N] [Fintype P] [DecidableEq P] in
theorem moved_eq_iff (p q : P) : (∀ t, moved φ κ p t = moved φ κ q t) ↔ p⁻¹ * q ∈ stab φ κ := by
  rw [mem_stab]
  constructor
  · intro h t
    have := h (φ p t)
    simp only [moved, MonoidHom.comp_apply, MulEquiv.toMonoidHom_eq_coe, MonoidHom.coe_coe] at this
    rw [← MulAut.mul_apply, ← MulAut.mul_apply, ← map_mul, ← map_mul, inv_mul_cancel, map_one, MulAut.one_apply] at this
    rw [mul_inv_rev, inv_inv, ← this]
  · intro h t
    have := h (φ p⁻¹ t)
    rw [mul_inv_rev, inv_inv, ← MulAut.mul_apply, ← map_mul, mul_assoc, mul_inv_cancel, mul_one] at this
    exact this.symm

omit [Fintype P] [DecidableEq P] in
theorem extend_conj {L : Subgroup P} {ψ : L → ℂ} (hψ : ∀ l m : L, ψ (m * l * m⁻¹) = ψ l) (m : L) (x : P) :
    extend L ψ ((m : P)⁻¹ * x * m) = extend L ψ x := by
  classical
  unfold extend
  by_cases hx : x ∈ L
  · have h2 : (m : P)⁻¹ * x * m ∈ L := L.mul_mem (L.mul_mem (L.inv_mem m.2) hx) m.2
    rw [dif_pos hx, dif_pos h2, ← hψ ⟨x, hx⟩ m⁻¹]
    congr 1
    exact Subtype.ext (by simp)
  · have h2 : (m : P)⁻¹ * x * m ∉ L := by
      intro h
      apply hx
      have := L.mul_mem (L.mul_mem m.2 h) (L.inv_mem m.2)
      convert this using 1
      group
    rw [dif_neg hx, dif_neg h2]

/-- scalar products of induced characters of one star. -/
theorem induce_inner (hκ : ∀ t, ‖κ t‖ = 1) (ψ₁ ψ₂ : stab φ κ → ℂ)
    (h2 : ∀ l m, ψ₂ (m * l * m⁻¹) = ψ₂ l) [Fintype (stab φ κ)] :
    ∑ t, ∑ g, induce φ κ (stab φ κ) ψ₁ t g * (starRingEnd ℂ) (induce φ κ (stab φ κ) ψ₂ t g) =
      (Fintype.card N : ℂ) * (Fintype.card P : ℂ) / (Fintype.card (stab φ κ) : ℂ) * ∑ l, ψ₁ l * (starRingEnd ℂ) (ψ₂ l) := by
  classical
  have hc : (Fintype.card (stab φ κ) : ℂ) ≠ 0 := card_ne
  have hkn : ∀ (p : P) t, ‖moved φ κ p t‖ = 1 := fun p t => hκ _
  set c : ℂ := (Fintype.card (stab φ κ) : ℂ) with hcdef
  have hcc : (starRingEnd ℂ) c = c := by rw [hcdef, map_natCast]
  let F : P → P → ℂ := fun g p => extend (stab φ κ) ψ₁ (p⁻¹ * g * p)
  let H : P → P → ℂ := fun g p => (starRingEnd ℂ) (extend (stab φ κ) ψ₂ (p⁻¹ * g * p))
  have e1 : ∀ t g, induce φ κ (stab φ κ) ψ₁ t g * (starRingEnd ℂ) (induce φ κ (stab φ κ) ψ₂ t g) =
      ∑ p, ∑ q, F g p * H g q / (c * c) * (moved φ κ p t * (starRingEnd ℂ) (moved φ κ q t)) := by
    intro t g
    unfold induce
    rw [map_sum, sum_mul_sum]
    refine sum_congr rfl fun p _ => sum_congr rfl fun q _ => ?_
    rw [map_mul, map_div₀, Nat.card_eq_fintype_card, ← hcdef, hcc]
    simp only [F, H, moved, MonoidHom.comp_apply, MulEquiv.toMonoidHom_eq_coe, MonoidHom.coe_coe]
    field_simp
  have e2 : ∑ t, ∑ g, induce φ κ (stab φ κ) ψ₁ t g * (starRingEnd ℂ) (induce φ κ (stab φ κ) ψ₂ t g) =
      ∑ g, ∑ p, ∑ q, F g p * H g q / (c * c) * ∑ t, moved φ κ p t * (starRingEnd ℂ) (moved φ κ q t) := by
    simp only [e1]
    rw [sum_comm]
    refine sum_congr rfl fun g _ => ?_
    rw [sum_comm]
    refine sum_congr rfl fun p _ => ?_
    rw [sum_comm]
    exact sum_congr rfl fun q _ => by rw [mul_sum]
  have e3 : ∀ g p, ∑ q, F g p * H g q / (c * c) * ∑ t, moved φ κ p t * (starRingEnd ℂ) (moved φ κ q t) =
      (Fintype.card N : ℂ) / c * (F g p * H g p) := by
    intro g p
    have h3 : ∀ q, F g p * H g q / (c * c) * ∑ t, moved φ κ p t * (starRingEnd ℂ) (moved φ κ q t) =
        if p⁻¹ * q ∈ stab φ κ then F g p * H g p / (c * c) * (Fintype.card N : ℂ) else 0 := by
      intro q
      split
      · rename_i hq
        rw [(sum_kappa _ _ (hkn p) (hkn q)).1 ((moved_eq_iff φ κ p q).2 hq)]
        congr 3
        simp only [H]
        congr 1
        have := extend_conj h2 ⟨p⁻¹ * q, hq⟩ (p⁻¹ * g * p)
        rw [← this]
        congr 1
        simp only
        group
      · rename_i hq
        rw [(sum_kappa _ _ (hkn p) (hkn q)).2 fun h => hq ((moved_eq_iff φ κ p q).1 h), mul_zero]
    simp only [h3]
    have h4 : ∑ q : P, (if p⁻¹ * q ∈ stab φ κ then F g p * H g p / (c * c) * (Fintype.card N : ℂ) else 0) =
        ∑ q : P, if q ∈ stab φ κ then F g p * H g p / (c * c) * (Fintype.card N : ℂ) else 0 :=
      Fintype.sum_equiv (Equiv.mulLeft p⁻¹) _ _ fun q => rfl
    rw [h4, ← sum_filter, sum_const, nsmul_eq_mul]
    have h5 : ((univ.filter fun q : P => q ∈ stab φ κ).card : ℂ) = c := by
      rw [hcdef, Fintype.card_subtype]
    rw [h5]
    field_simp
  have e4 : ∀ p, ∑ g, F g p * H g p = ∑ l, ψ₁ l * (starRingEnd ℂ) (ψ₂ l) := by
    intro p
    have h6 : ∑ g, F g p * H g p = ∑ g : P, extend (stab φ κ) ψ₁ g * (starRingEnd ℂ) (extend (stab φ κ) ψ₂ g) := by
      refine Fintype.sum_equiv (MulAut.conj p⁻¹).toEquiv _ _ fun g => ?_
      simp [F, H]
    rw [h6]
    have h7 : ∀ g : P, extend (stab φ κ) ψ₁ g * (starRingEnd ℂ) (extend (stab φ κ) ψ₂ g) =
        if h : g ∈ stab φ κ then ψ₁ ⟨g, h⟩ * (starRingEnd ℂ) (ψ₂ ⟨g, h⟩) else 0 := by
      intro g
      unfold extend
      split <;> simp
    simp only [h7]
    rw [Finset.sum_dite]
    simp only [sum_const_zero, add_zero]
    refine Finset.sum_bij (fun x _ => ⟨x.1, (mem_filter.1 x.2).2⟩) (fun _ _ => mem_univ _) ?_ ?_ ?_
    · intro a _ b _ h
      have h' : (a : P) = b := by simpa using h
      exact Subtype.ext h'
    · intro b _
      exact ⟨⟨b.1, mem_filter.2 ⟨mem_univ _, b.2⟩⟩, mem_univ _, rfl⟩
    · intro a _
      rfl
  rw [e2]
  simp only [e3, ← mul_sum]
  rw [sum_comm]
  simp only [e4, sum_const, card_univ, nsmul_eq_mul]
  ring

/-- characters of different stars are orthogonal. -/
theorem induce_other (κ' : N →* ℂ) (hκ : ∀ t, ‖κ t‖ = 1) (hκ' : ∀ t, ‖κ' t‖ = 1) (L L' : Subgroup P) (ψ : L → ℂ) (ψ' : L' → ℂ)
    (hne : ∀ p, ¬∀ t, moved φ κ p t = κ' t) :
    ∑ t, ∑ g, induce φ κ L ψ t g * (starRingEnd ℂ) (induce φ κ' L' ψ' t g) = 0 := by
  classical
  have hz : ∀ p q, ∑ t, moved φ κ p t * (starRingEnd ℂ) (moved φ κ' q t) = 0 := by
    intro p q
    refine (sum_kappa (moved φ κ p) (moved φ κ' q) (fun t => hκ _) (fun t => hκ' _)).2 fun h => hne (q⁻¹ * p) fun t => ?_
    have := h (φ q t)
    simp only [moved, MonoidHom.comp_apply, MulEquiv.toMonoidHom_eq_coe, MonoidHom.coe_coe] at this ⊢
    rw [← MulAut.mul_apply, ← MulAut.mul_apply, ← map_mul, ← map_mul, inv_mul_cancel, map_one, MulAut.one_apply] at this
    rw [mul_inv_rev, inv_inv, this]
  have e1 : ∀ t g, induce φ κ L ψ t g * (starRingEnd ℂ) (induce φ κ' L' ψ' t g) =
      ∑ p, ∑ q, (extend L ψ (p⁻¹ * g * p) / (Nat.card L : ℂ)) *
        (starRingEnd ℂ) (extend L' ψ' (q⁻¹ * g * q) / (Nat.card L' : ℂ)) *
          (moved φ κ p t * (starRingEnd ℂ) (moved φ κ' q t)) := by
    intro t g
    unfold induce
    rw [map_sum, sum_mul_sum]
    refine sum_congr rfl fun p _ => sum_congr rfl fun q _ => ?_
    rw [map_mul]
    simp only [moved, MonoidHom.comp_apply, MulEquiv.toMonoidHom_eq_coe, MonoidHom.coe_coe]
    ring
  simp only [e1]
  rw [sum_comm]
  refine sum_eq_zero fun g _ => ?_
  rw [sum_comm]
  refine sum_eq_zero fun p _ => ?_
  rw [sum_comm]
  exact sum_eq_zero fun q _ => by rw [← mul_sum, hz, mul_zero]

omit [Fintype N] [DecidableEq P] in
/-- value at the inverse. -/
theorem induce_inv (hκ : ∀ t, ‖κ t‖ = 1) (L : Subgroup P) (ψ : L → ℂ) (hψ : ∀ l, ψ l⁻¹ = (starRingEnd ℂ) (ψ l)) (x : N ⋊[φ] P) :
    induce φ κ L ψ (x⁻¹).left (x⁻¹).right = (starRingEnd ℂ) (induce φ κ L ψ x.left x.right) := by
  classical
  unfold induce
  rw [map_sum]
  refine Fintype.sum_equiv (Equiv.mulLeft x.right) _ _ fun p => ?_
  have hinv : ∀ t, κ t⁻¹ = (starRingEnd ℂ) (κ t) := by
    intro t
    have h1 : κ t * κ t⁻¹ = 1 := by rw [← map_mul, mul_inv_cancel, map_one]
    have h2 : κ t * (starRingEnd ℂ) (κ t) = 1 := by rw [Complex.mul_conj, Complex.normSq_eq_norm_sq, hκ]; simp
    have h3 : κ t ≠ 0 := left_ne_zero_of_mul_eq_one h1
    exact mul_left_cancel₀ h3 (h1.trans h2.symm)
  have hext : ∀ y : P, extend L ψ y⁻¹ = (starRingEnd ℂ) (extend L ψ y) := by
    intro y
    unfold extend
    by_cases hy : y ∈ L
    · rw [dif_pos (L.inv_mem hy), dif_pos hy, ← hψ]
      rfl
    · rw [dif_neg hy, dif_neg fun h => hy (by simpa using L.inv_mem h), map_zero]
  rw [map_mul, map_div₀, map_natCast, ← hext, ← hinv]
  simp only [SemidirectProduct.inv_left, SemidirectProduct.inv_right, Equiv.coe_mulLeft]
  congr 3
  · rw [← MulAut.mul_apply, ← map_mul, mul_inv_rev, map_inv]
  · group

/-- induced characters are irreducible. -/
theorem irr_induce (hκ : ∀ t, ‖κ t‖ = 1) (ψ : stab φ κ → ℂ) (hψ : IsIrrChar ψ) :
    IsIrrChar fun x : N ⋊[φ] P => induce φ κ (stab φ κ) ψ x.left x.right := by
  classical
  have : Fintype (stab φ κ) := Fintype.ofFinite _
  have : Fintype (N ⋊[φ] P) := Fintype.ofEquiv (N × P) SemidirectProduct.equivProd.symm
  have hψ0 := hψ
  obtain ⟨V, i1, i2, i3, σ, -, hσ⟩ := hψ
  have hψe : ψ = fun l => LinearMap.trace ℂ V (σ l) := funext hσ
  refine ⟨_, _, _, inferInstance, induced φ κ σ, ?_, fun x => by rw [trace_induced, ← hψe]⟩
  apply irreducible_of_norm
  have hch : ∀ x, (induced φ κ σ).character x = induce φ κ (stab φ κ) ψ x.left x.right := by
    intro x
    unfold Representation.character
    rw [trace_induced, ← hψe]
  obtain ⟨d, hd, hd1, hn, hs⟩ := hψ0.facts
  have hd' : (d : ℂ) ≠ 0 := Nat.cast_ne_zero.2 (by omega)
  have hinv : ∀ l, ψ l⁻¹ = (starRingEnd ℂ) (ψ l) := by
    intro l
    have := hs.inv_eq_conj l
    simp only [map_div₀, map_natCast] at this
    exact (div_left_inj' hd').1 this
  have hcl : ∀ l m, ψ (m * l * m⁻¹) = ψ l := by
    intro l m
    exact (div_left_inj' hd').1 (hs.conj_inv m l)
  simp only [hch]
  simp only [induce_inv φ κ hκ _ ψ hinv]
  have h1 : ∑ x : N ⋊[φ] P, induce φ κ (stab φ κ) ψ x.left x.right * (starRingEnd ℂ) (induce φ κ (stab φ κ) ψ x.left x.right) =
      ∑ t, ∑ g, induce φ κ (stab φ κ) ψ t g * (starRingEnd ℂ) (induce φ κ (stab φ κ) ψ t g) := by
    rw [← Fintype.sum_prod_type']
    exact Fintype.sum_equiv SemidirectProduct.equivProd _ _ fun x => rfl
  rw [h1, induce_inner φ κ hκ ψ ψ hcl, hn]
  have hc : (Fintype.card (stab φ κ) : ℂ) ≠ 0 := card_ne
  have h2 : Fintype.card (N ⋊[φ] P) = Fintype.card N * Fintype.card P := by
    rw [Fintype.card_congr SemidirectProduct.equivProd, Fintype.card_prod]
  rw [h2]
  push_cast
  field_simp

end Mackey

end Verif.Irrep
