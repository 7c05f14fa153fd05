import Verif.Lemmas.Burnside
import Mathlib.Analysis.InnerProductSpace.JointEigenspace
import Mathlib.Analysis.InnerProductSpace.PiL2
import Mathlib.LinearAlgebra.Matrix.Charpoly.Eigs
import Mathlib.MeasureTheory.Measure.Lebesgue.EqHaar

/-! The class matrix of a generic vector has distinct eigenvalues. -/

namespace Verif.Irrep

open Finset

variable {G : Type} [Group G] [Fintype G]

/-- different solutions are orthogonal. -/
theorem Spherical.orthogonal {φ ψ : G → ℂ} (hφ : Spherical φ) (hψ : Spherical ψ) (hne : φ ≠ ψ) :
    ∑ x, (starRingEnd ℂ) (ψ x) * φ x = 0 := by
  set S := ∑ x, (starRingEnd ℂ) (ψ x) * φ x with hS
  by_contra h0
  refine hne (funext fun r => ?_)
  have h1 : ∑ x, (starRingEnd ℂ) (ψ x) * φ (r * x) = S * φ r :=
    hφ.conv (fun x => (starRingEnd ℂ) (ψ x)) (fun h x => by simp only [hψ.conj_inv]) r
  have h2 : ∑ x, (starRingEnd ℂ) (φ x) * ψ (r⁻¹ * x) = (∑ x, (starRingEnd ℂ) (φ x) * ψ x) * ψ r⁻¹ :=
    hψ.conv (fun x => (starRingEnd ℂ) (φ x)) (fun h x => by simp only [hφ.conj_inv]) r⁻¹
  have h3 : ∑ x, (starRingEnd ℂ) (ψ x) * φ (r * x) = ∑ x, (starRingEnd ℂ) (ψ (r⁻¹ * x)) * φ x := by
    refine Fintype.sum_equiv (Equiv.mulLeft r) _ _ fun x => ?_
    simp
  have h4 := congrArg (starRingEnd ℂ) h2
  simp only [map_sum, map_mul, Complex.conj_conj, hψ.inv_eq_conj] at h4
  have h5 : S * φ r = S * ψ r := by
    rw [← h1, h3]
    calc ∑ x, (starRingEnd ℂ) (ψ (r⁻¹ * x)) * φ x = ∑ x, φ x * (starRingEnd ℂ) (ψ (r⁻¹ * x)) :=
          sum_congr rfl fun x _ => mul_comm _ _
      _ = _ := h4
      _ = _ := by
          rw [hS]
          congr 1
          exact sum_congr rfl fun x _ => mul_comm _ _
  exact mul_left_cancel₀ h0 h5

theorem spherical_independent : LinearIndependent ℂ (fun φ : {φ : G → ℂ // Spherical φ} => φ.1) := by
  rw [linearIndependent_iff']
  intro s c h ψ hψ
  have h1 : ∑ x, (starRingEnd ℂ) (ψ.1 x) * (∑ φ ∈ s, c φ • φ.1) x = 0 := by
    rw [h]
    simp
  have h2 : ∑ x, (starRingEnd ℂ) (ψ.1 x) * (∑ φ ∈ s, c φ • φ.1) x =
      ∑ φ ∈ s, c φ * ∑ x, (starRingEnd ℂ) (ψ.1 x) * φ.1 x := by
    simp only [Finset.sum_apply, mul_sum]
    rw [sum_comm]
    refine sum_congr rfl fun φ _ => sum_congr rfl fun x _ => ?_
    simp only [Pi.smul_apply, smul_eq_mul]
    ring
  rw [h2, sum_eq_single ψ] at h1
  · refine (mul_eq_zero.1 h1).resolve_right ?_
    have := ψ.2.normSq_ne
    intro hz
    refine this (Eq.trans (sum_congr rfl fun x _ => mul_comm _ _) hz)
  · intro φ _ hne
    rw [φ.2.orthogonal ψ.2 fun e => hne (Subtype.ext e), mul_zero]
  · intro hn
    exact absurd hψ hn

/-- adjoint of a function. -/
def star' (b : G → ℂ) (x : G) : ℂ := (starRingEnd ℂ) (b x⁻¹)

/-- convolution as a linear map of the Euclidean space. -/
noncomputable def convL (b : G → ℂ) : EuclideanSpace ℂ G →ₗ[ℂ] EuclideanSpace ℂ G where
  toFun F := WithLp.toLp 2 (conv b F.ofLp)
  map_add' F H := by
    ext r
    simp [conv, mul_add, sum_add_distrib]
  map_smul' c F := by
    ext r
    simp only [conv, mul_sum, PiLp.smul_apply, smul_eq_mul, RingHom.id_apply]
    exact sum_congr rfl fun x _ => by ring

theorem convL_symm (b : G → ℂ) (hb : star' b = b) : (convL b).IsSymmetric := by
  intro F H
  simp only [PiLp.inner_apply, convL, LinearMap.coe_mk, AddHom.coe_mk, RCLike.inner_apply, conv, map_sum, map_mul, mul_sum, sum_mul]
  rw [sum_comm]
  nth_rw 2 [sum_comm]
  refine Fintype.sum_equiv (Equiv.inv G) _ _ fun x => ?_
  have hx : (starRingEnd ℂ) (b x) = b x⁻¹ := by
    have := congrFun hb x⁻¹
    simpa [star'] using this
  refine Fintype.sum_equiv (Equiv.mulRight x) _ _ fun r => ?_
  simp only [Equiv.coe_mulRight, Equiv.inv_apply, mul_inv_cancel_right, hx]
  ring

/-- every class function is a combination of solutions. -/
theorem spherical_span (F : G → ℂ) (hF : IsClassFn F) :
    F ∈ Submodule.span ℂ (Set.range fun φ : {φ : G → ℂ // Spherical φ} => φ.1) := by
  classical
  let ι := {b : G → ℂ // IsClassFn b ∧ star' b = b}
  have htop := LinearMap.IsSymmetric.iSup_iInf_eq_top_of_commute (𝕜 := ℂ) (T := fun b : ι => convL b.1)
    (fun b => convL_symm b.1 b.2.2) (by
      intro b b' _
      show convL b.1 * convL b'.1 = convL b'.1 * convL b.1
      ext F r
      exact congrFun (conv_comm b.1 b'.1 F.ofLp b'.2.1) r)
  have hmem : WithLp.toLp 2 F ∈ ⨆ χ : ι → ℂ, ⨅ i, Module.End.eigenspace (convL i.1) (χ i) := by
    rw [htop]
    trivial
  have havg : ∀ H : EuclideanSpace ℂ G, H ∈ (⨆ χ : ι → ℂ, ⨅ i, Module.End.eigenspace (convL i.1) (χ i)) →
      avg H.ofLp ∈ Submodule.span ℂ (Set.range fun φ : {φ : G → ℂ // Spherical φ} => φ.1) := by
    intro H hH
    induction hH using Submodule.iSup_induction' with
    | mem χ H hH =>
      rw [Submodule.mem_iInf] at hH
      by_cases h0 : avg H.ofLp = 0
      · rw [h0]
        exact Submodule.zero_mem _
      · have hsym : ∀ b : ι, conv b.1 (avg H.ofLp) = χ b • avg H.ofLp := by
          intro b
          have h1 := congrArg WithLp.ofLp (Module.End.mem_eigenspace_iff.1 (hH b))
          have h2 : ∀ r, conv b.1 H.ofLp r = χ b * H.ofLp r := fun r => congrFun h1 r
          funext r
          simp only [conv, avg, Pi.smul_apply, smul_eq_mul]
          rw [mul_div_assoc', mul_sum]
          simp only [← h2, conv]
          have h3 : ∀ h, ∑ x, b.1 x * H.ofLp (h * r * h⁻¹ * x) = ∑ x, b.1 x * H.ofLp (h * (r * x) * h⁻¹) := by
            intro h
            refine Fintype.sum_equiv (MulAut.conj h⁻¹).toEquiv _ _ fun x => ?_
            simp only [MulEquiv.toEquiv_eq_coe, MulEquiv.coe_toEquiv, MulAut.conj_apply, inv_inv]
            have h4 := b.2.1 h⁻¹ x
            rw [inv_inv] at h4
            rw [h4, show h * (r * (h⁻¹ * x * h)) * h⁻¹ = h * r * h⁻¹ * x by group]
          rw [sum_congr rfl fun h _ => h3 h, sum_comm, sum_div]
          refine sum_congr rfl fun x _ => ?_
          rw [mul_div_assoc', mul_sum]
        have hscal : ∀ b, IsClassFn b → ∃ l : ℂ, conv b (avg H.ofLp) = l • avg H.ofLp := by
          intro b hb
          have hstar : IsClassFn (star' b) := by
            intro h x
            unfold star'
            rw [← hb h x⁻¹]
            congr 2
            group
          let b1 : ι := ⟨fun x => (b x + star' b x) / 2, fun h x => by simp only [hb h x, hstar h x], by
            funext x
            simp [star', add_comm, map_ofNat]⟩
          let b2 : ι := ⟨fun x => Complex.I * (b x - star' b x) / 2, fun h x => by simp only [hb h x, hstar h x], by
            funext x
            simp only [star', map_div₀, map_mul, map_sub, Complex.conj_I, Complex.conj_conj, inv_inv, map_ofNat]
            ring⟩
          refine ⟨χ b1 - Complex.I * χ b2, ?_⟩
          rw [sub_smul, mul_smul, ← hsym b1, ← hsym b2]
          funext r
          simp only [conv, Pi.sub_apply, Pi.smul_apply, smul_eq_mul, mul_sum, ← sum_sub_distrib, b1, b2]
          refine sum_congr rfl fun x _ => ?_
          linear_combination ((b x - star' b x) / 2 * avg H.ofLp (r * x)) * Complex.I_mul_I
        obtain ⟨h1, h2⟩ := spherical_of_scal _ (avg_classFn _) h0 hscal
        have h3 : avg H.ofLp = avg H.ofLp 1 • fun g => avg H.ofLp g / avg H.ofLp 1 := by
          funext g
          simp only [Pi.smul_apply, smul_eq_mul]
          field_simp
        rw [h3]
        exact Submodule.smul_mem _ _ (Submodule.subset_span ⟨⟨_, h2⟩, rfl⟩)
    | zero =>
      have : avg (0 : EuclideanSpace ℂ G).ofLp = 0 := by
        funext x
        simp [avg]
      rw [this]
      exact Submodule.zero_mem _
    | add x y _ _ hx hy =>
      have : avg (x + y).ofLp = avg x.ofLp + avg y.ofLp := by
        funext g
        simp [avg, sum_add_distrib, add_div]
      rw [this]
      exact Submodule.add_mem _ hx hy
  have h1 := havg _ hmem
  have h2 : avg F = F := by
    funext x
    unfold avg
    simp only [hF _ x, sum_const, card_univ, nsmul_eq_mul]
    rw [mul_div_cancel_left₀ _ card_ne]
  rw [← h2]
  exact h1

variable {k : Nat} {κ : G → Fin k}

/-- there are as many solutions as classes. -/
theorem spherical_count (hκ : Classes G k κ) : ∃ e : Fin k ≃ {φ : G → ℂ // Spherical φ}, True := by
  classical
  let L : (Fin k → ℂ) →ₗ[ℂ] (G → ℂ) :=
    { toFun := toFn κ
      map_add' := fun u v => by funext g; simp [toFn, add_div]
      map_smul' := fun c v => toFn_smul κ c v }
  have hL : LinearMap.ker L = ⊥ := LinearMap.ker_eq_bot.2 fun u v h => toFn_injective hκ u v h
  have hcls : ∀ φ : {φ : G → ℂ // Spherical φ}, L (ofFn hκ φ.1) = φ.1 := fun φ =>
    toFn_ofFn hκ φ.1 fun h x => φ.2.conj_inv h x
  have hli : LinearIndependent ℂ fun φ : {φ : G → ℂ // Spherical φ} => ofFn hκ φ.1 := by
    refine LinearIndependent.of_comp L ?_
    have : (⇑L ∘ fun φ : {φ : G → ℂ // Spherical φ} => ofFn hκ φ.1) = fun φ => φ.1 := funext hcls
    rw [this]
    exact spherical_independent
  have hspan : ⊤ ≤ Submodule.span ℂ (Set.range fun φ : {φ : G → ℂ // Spherical φ} => ofFn hκ φ.1) := by
    intro v _
    have h1 := spherical_span (L v) (toFn_classFn hκ v)
    have h2 : Submodule.span ℂ (Set.range fun φ : {φ : G → ℂ // Spherical φ} => φ.1) =
        (Submodule.span ℂ (Set.range fun φ : {φ : G → ℂ // Spherical φ} => ofFn hκ φ.1)).map L := by
      rw [Submodule.map_span, ← Set.range_comp]
      congr 2
      exact (funext hcls).symm
    rw [h2] at h1
    obtain ⟨u, hu, huv⟩ := h1
    rw [← toFn_injective hκ u v huv]
    exact hu
  let B := Module.Basis.mk hli hspan
  have : Fintype {φ : G → ℂ // Spherical φ} := FiniteDimensional.fintypeBasisIndex B
  have hc : Fintype.card {φ : G → ℂ // Spherical φ} = k := by
    rw [← Module.finrank_eq_card_basis B]
    simp
  exact ⟨(Fintype.equivFinOfCardEq hc).symm, trivial⟩

/-- if the numbers `∑ a φ` are distinct, the eigenvalues are. -/
theorem eigenvalues_distinct (hκ : Classes G k κ) (a : G → ℂ)
    (ha : ∀ φ ψ : G → ℂ, Spherical φ → Spherical ψ → ∑ x, a x * φ x = ∑ x, a x * ψ x → φ = ψ) (w : Fin k → ℂ)
    (hw : (clsMatrix κ a).charpoly = ∏ j, (Polynomial.X - Polynomial.C (w j))) : Function.Injective w := by
  obtain ⟨e, -⟩ := spherical_count hκ
  have hroot : ∀ i, ∃ j, w j = ∑ x, a x * (e i).1 x := by
    intro i
    obtain ⟨h1, h2⟩ := spherical_eigen hκ a (e i).2
    have h3 : Module.End.HasEigenvalue (Matrix.toLin' (clsMatrix κ a)) (∑ x, a x * (e i).1 x) :=
      Module.End.hasEigenvalue_of_hasEigenvector (x := ofFn hκ (e i).1)
        ⟨Module.End.mem_eigenspace_iff.2 (by rw [Matrix.toLin'_apply]; exact h2), h1⟩
    have h4 : (clsMatrix κ a).charpoly.IsRoot (∑ x, a x * (e i).1 x) := by
      have := Module.End.hasEigenvalue_iff_isRoot_charpoly (Matrix.toLin' (clsMatrix κ a)) (∑ x, a x * (e i).1 x) |>.1 h3
      rwa [Matrix.charpoly_toLin'] at this
    rw [hw, Polynomial.IsRoot.def, Polynomial.eval_prod, prod_eq_zero_iff] at h4
    obtain ⟨j, -, hj⟩ := h4
    refine ⟨j, ?_⟩
    simp only [Polynomial.eval_sub, Polynomial.eval_X, Polynomial.eval_C] at hj
    linear_combination -hj
  choose f hf using hroot
  have hfi : Function.Injective f := by
    intro i i' h
    refine e.injective (Subtype.ext (ha _ _ (e i).2 (e i').2 ?_))
    rw [← hf i, ← hf i', h]
  have hfs : Function.Surjective f := Finite.surjective_of_injective hfi
  intro j j' h
  obtain ⟨i, rfl⟩ := hfs j
  obtain ⟨i', rfl⟩ := hfs j'
  rw [hf, hf] at h
  rw [e.injective (Subtype.ext (ha _ _ (e i).2 (e i').2 h))]

/-- for almost all real vectors the numbers are distinct. -/
theorem generic (hκ : Classes G k κ) {n : Nat} (idx : Fin n ≃ G) :
    ∀ᵐ a : Fin n → ℝ, ∀ φ ψ : G → ℂ, Spherical φ → Spherical ψ →
      ∑ x, (a (idx.symm x) : ℂ) * φ x = ∑ x, (a (idx.symm x) : ℂ) * ψ x → φ = ψ := by
  obtain ⟨e, -⟩ := spherical_count hκ
  have hall : ∀ i j : Fin k, ∀ᵐ a : Fin n → ℝ,
      ∑ x, (a (idx.symm x) : ℂ) * (e i).1 x = ∑ x, (a (idx.symm x) : ℂ) * (e j).1 x → i = j := by
    intro i j
    by_cases hij : i = j
    · exact Filter.Eventually.of_forall fun _ _ => hij
    · let L : (Fin n → ℝ) →ₗ[ℝ] ℂ :=
        { toFun := fun a => ∑ x, (a (idx.symm x) : ℂ) * ((e i).1 x - (e j).1 x)
          map_add' := fun a b => by simp [add_mul, sum_add_distrib]
          map_smul' := fun c a => by simp [mul_sum, mul_assoc] }
      have hL : LinearMap.ker L ≠ ⊤ := by
        intro h
        refine hij (e.injective (Subtype.ext (funext fun y => ?_)))
        have h1 : L (Pi.single (idx.symm y) 1) = 0 := by
          have : Pi.single (idx.symm y) (1 : ℝ) ∈ LinearMap.ker L := by rw [h]; trivial
          exact this
        have h2 : L (Pi.single (idx.symm y) 1) = (e i).1 y - (e j).1 y := by
          show ∑ x, ((Pi.single (idx.symm y) 1 : Fin n → ℝ) (idx.symm x) : ℂ) * ((e i).1 x - (e j).1 x) = _
          rw [sum_eq_single y]
          · simp
          · intro x _ hx
            rw [Pi.single_eq_of_ne (fun h' => hx (idx.symm.injective h'))]
            simp
          · simp
        rw [h2] at h1
        exact sub_eq_zero.1 h1
      have h0 := MeasureTheory.Measure.addHaar_submodule (MeasureTheory.volume : MeasureTheory.Measure (Fin n → ℝ)) _ hL
      rw [MeasureTheory.ae_iff]
      refine MeasureTheory.measure_mono_null ?_ h0
      intro a ha
      simp only [Set.mem_setOf_eq, Classical.not_imp] at ha
      show L a = 0
      show ∑ x, (a (idx.symm x) : ℂ) * ((e i).1 x - (e j).1 x) = 0
      simp only [mul_sub, sum_sub_distrib]
      exact sub_eq_zero.2 ha.1
  have := MeasureTheory.ae_all_iff.2 fun i => MeasureTheory.ae_all_iff.2 (hall i)
  filter_upwards [this] with a ha φ ψ hφ hψ h
  have h1 := ha (e.symm ⟨φ, hφ⟩) (e.symm ⟨ψ, hψ⟩) (by simpa using h)
  have h2 := congrArg Subtype.val (e.symm.injective h1)
  exact h2

end Verif.Irrep
