import Verif.Lemmas.Spherical
import Mathlib.LinearAlgebra.Eigenspace.Basic
import Mathlib.LinearAlgebra.Matrix.ToLin
import Mathlib.LinearAlgebra.FiniteDimensional.Lemmas
import Mathlib.Algebra.Group.Conj

/-! The algebra behind Burnside's algorithm: eigenvectors of a random class matrix. -/

namespace Verif.Irrep

open Finset

variable {G : Type} [Group G] [Fintype G]

/-- a numbering of the conjugacy classes. -/
structure Classes (G : Type) [Group G] (k : Nat) (κ : G → Fin k) : Prop where
  surj : Function.Surjective κ
  conj : ∀ g h, κ g = κ h ↔ ∃ x, h = x * g * x⁻¹

variable {k : Nat} {κ : G → Fin k}

/-- sizes of the classes. -/
def size (κ : G → Fin k) (c : Fin k) : ℂ := ∑ g : G, if κ g = c then 1 else 0

/-- the matrix of the algorithm. -/
noncomputable def clsMatrix (κ : G → Fin k) (a : G → ℂ) : Matrix (Fin k) (Fin k) ℂ := fun R S =>
  (∑ r, ∑ s, (if κ r = R then 1 else 0) * a (r⁻¹ * s) * (if κ s = S then 1 else 0)) / size κ S

/-- vector on the classes to function on the group. -/
noncomputable def toFn (κ : G → Fin k) (v : Fin k → ℂ) (g : G) : ℂ := v (κ g) / size κ (κ g)

/-- convolution. -/
def conv (b F : G → ℂ) (r : G) : ℂ := ∑ x, b x * F (r * x)

/-- average over conjugates. -/
noncomputable def avg (a : G → ℂ) (x : G) : ℂ := (∑ h, a (h * x * h⁻¹)) / Fintype.card G

/-- constant on classes. -/
def IsClassFn (F : G → ℂ) : Prop := ∀ h x, F (h * x * h⁻¹) = F x

theorem avg_classFn (a : G → ℂ) : IsClassFn (avg a) := by
  intro k x
  unfold avg
  congr 1
  refine Fintype.sum_equiv (Equiv.mulRight k) _ _ fun h => ?_
  simp only [Equiv.coe_mulRight]
  congr 1
  group

theorem conv_classFn (b F : G → ℂ) (hb : IsClassFn b) (hF : IsClassFn F) : IsClassFn (conv b F) := by
  intro h r
  unfold conv
  refine Fintype.sum_equiv (MulAut.conj h⁻¹).toEquiv _ _ fun x => ?_
  simp only [MulEquiv.toEquiv_eq_coe, MulEquiv.coe_toEquiv, MulAut.conj_apply, inv_inv]
  have h1 := hb h⁻¹ x
  rw [inv_inv] at h1
  rw [h1]
  congr 1
  rw [← hF h (r * (h⁻¹ * x * h))]
  congr 1
  group

theorem conv_comm (b b' F : G → ℂ) (hb' : IsClassFn b') : conv b (conv b' F) = conv b' (conv b F) := by
  funext r
  unfold conv
  simp only [mul_sum]
  rw [sum_comm (f := fun y x => b' y * (b x * F (r * y * x)))]
  refine sum_congr rfl fun x _ => ?_
  refine Fintype.sum_equiv (MulAut.conj x).toEquiv _ _ fun y => ?_
  simp only [MulEquiv.toEquiv_eq_coe, MulEquiv.coe_toEquiv, MulAut.conj_apply]
  rw [hb' x y, mul_left_comm]
  congr 3
  group

theorem size_eq_card (κ : G → Fin k) (c : Fin k) : size κ c = ((univ.filter fun g => κ g = c).card : ℂ) := by
  simp [size]

theorem size_ne (hκ : Classes G k κ) (c : Fin k) : size κ c ≠ 0 := by
  obtain ⟨g, hg⟩ := hκ.surj c
  rw [size_eq_card]
  refine Nat.cast_ne_zero.2 (Finset.card_ne_zero.2 ⟨g, by simp [hg]⟩)

theorem toFn_classFn (hκ : Classes G k κ) (v : Fin k → ℂ) : IsClassFn (toFn κ v) := by
  intro h x
  unfold toFn
  have : κ x = κ (h * x * h⁻¹) := (hκ.conj _ _).2 ⟨h, rfl⟩
  rw [this]

/-- the average over a class. -/
theorem class_sum (hκ : Classes G k κ) (g : G) (f : G → ℂ) :
    size κ (κ g) * ∑ h, f (h * g * h⁻¹) = Fintype.card G * ∑ r, if κ r = κ g then f r else 0 := by
  classical
  have hcount : ∀ r, κ r = κ g → (univ.filter fun h => h * g * h⁻¹ = r).card = (univ.filter fun h => h * g * h⁻¹ = g).card := by
    intro r hr
    obtain ⟨x, hx⟩ := (hκ.conj _ _).1 hr.symm
    refine Finset.card_bij (fun h _ => x⁻¹ * h) ?_ ?_ ?_
    · intro h hh
      rw [mem_filter] at hh ⊢
      refine ⟨mem_univ _, ?_⟩
      have := hh.2
      rw [hx] at this
      calc x⁻¹ * h * g * (x⁻¹ * h)⁻¹ = x⁻¹ * (h * g * h⁻¹) * x := by group
        _ = g := by rw [this]; group
    · intro a _ b _ hab
      exact mul_left_cancel hab
    · intro h hh
      rw [mem_filter] at hh
      refine ⟨x * h, ?_, by group⟩
      rw [mem_filter]
      refine ⟨mem_univ _, ?_⟩
      calc x * h * g * (x * h)⁻¹ = x * (h * g * h⁻¹) * x⁻¹ := by group
        _ = r := by rw [hh.2, hx]
  set N := (univ.filter fun h => h * g * h⁻¹ = g).card with hN
  have key : ∀ f : G → ℂ, ∑ h, f (h * g * h⁻¹) = N * ∑ r, if κ r = κ g then f r else 0 := by
    intro f
    rw [← Finset.sum_fiberwise (s := univ) (g := fun h => h * g * h⁻¹), mul_sum]
    refine sum_congr rfl fun r _ => ?_
    by_cases hr : κ r = κ g
    · rw [if_pos hr, ← hcount r hr, ← nsmul_eq_mul, ← sum_const]
      refine sum_congr rfl fun h hh => ?_
      rw [(mem_filter.1 hh).2]
    · rw [if_neg hr, mul_zero]
      refine sum_eq_zero fun h hh => ?_
      exact absurd ((hκ.conj _ _).2 ⟨h, (mem_filter.1 hh).2.symm⟩).symm hr
  have h1 := key fun _ => 1
  rw [sum_const, card_univ, nsmul_eq_mul, mul_one] at h1
  rw [key f, h1]
  unfold size
  ring

/-- the class matrix is convolution with the average of `a`. -/
theorem toFn_mulVec (hκ : Classes G k κ) (a : G → ℂ) (v : Fin k → ℂ) :
    toFn κ ((clsMatrix κ a).mulVec v) = conv (avg a) (toFn κ v) := by
  classical
  funext g
  have hF := toFn_classFn hκ v
  have h1 : (clsMatrix κ a).mulVec v (κ g) = ∑ r, if κ r = κ g then ∑ s, a (r⁻¹ * s) * toFn κ v s else 0 := by
    calc (clsMatrix κ a).mulVec v (κ g)
        = ∑ S, ∑ r, ∑ s, (if κ r = κ g then 1 else 0) * (a (r⁻¹ * s) * (if κ s = S then v S / size κ S else 0)) := by
          unfold Matrix.mulVec dotProduct clsMatrix
          refine sum_congr rfl fun S _ => ?_
          rw [div_mul_eq_mul_div, sum_mul, sum_div]
          refine sum_congr rfl fun r _ => ?_
          rw [sum_mul, sum_div]
          refine sum_congr rfl fun s _ => ?_
          by_cases hs : κ s = S
          · simp only [hs, if_true]; ring
          · simp [hs]
      _ = ∑ r, ∑ s, ∑ S, (if κ r = κ g then 1 else 0) * (a (r⁻¹ * s) * (if κ s = S then v S / size κ S else 0)) := by
          rw [sum_comm]
          exact sum_congr rfl fun r _ => sum_comm
      _ = _ := by
          refine sum_congr rfl fun r _ => ?_
          by_cases hr : κ r = κ g
          · simp only [hr, if_true, one_mul, ← mul_sum]
            refine sum_congr rfl fun s _ => ?_
            rw [sum_ite_eq]
            simp [toFn]
          · simp [hr]
  have h2 : ∀ r, ∑ s, a (r⁻¹ * s) * toFn κ v s = ∑ x, a x * toFn κ v (r * x) := by
    intro r
    refine Fintype.sum_equiv (Equiv.mulLeft r⁻¹) _ _ fun s => ?_
    simp
  have h3 := class_sum hκ g fun r => ∑ x, a x * toFn κ v (r * x)
  have h4 : ∑ h, ∑ x, a x * toFn κ v (h * g * h⁻¹ * x) = Fintype.card G * conv (avg a) (toFn κ v) g := by
    unfold conv avg
    rw [mul_sum]
    calc ∑ h, ∑ x, a x * toFn κ v (h * g * h⁻¹ * x)
        = ∑ h, ∑ x, a (h * x * h⁻¹) * toFn κ v (g * x) := by
          refine sum_congr rfl fun h _ => ?_
          refine Fintype.sum_equiv (MulAut.conj h⁻¹).toEquiv _ _ fun x => ?_
          simp only [MulEquiv.toEquiv_eq_coe, MulEquiv.coe_toEquiv, MulAut.conj_apply, inv_inv]
          rw [← hF h (g * (h⁻¹ * x * h))]
          congr 2 <;> group
      _ = _ := by
          rw [sum_comm]
          refine sum_congr rfl fun x _ => ?_
          rw [← sum_mul]
          field_simp [card_ne (G := G)]
  unfold toFn at *
  rw [h1, div_eq_iff (size_ne hκ _)]
  refine mul_left_cancel₀ (card_ne (G := G)) ?_
  have h5 : ∀ r, (if κ r = κ g then ∑ s, a (r⁻¹ * s) * (v (κ s) / size κ (κ s)) else 0) =
      if κ r = κ g then ∑ x, a x * (v (κ (r * x)) / size κ (κ (r * x))) else 0 := by
    intro r
    rw [h2 r]
  rw [sum_congr rfl fun r _ => h5 r, ← h3, h4]
  ring

/-! ### eigenvectors -/

theorem toFn_injective (hκ : Classes G k κ) (u v : Fin k → ℂ) (h : toFn κ u = toFn κ v) : u = v := by
  funext c
  obtain ⟨g, rfl⟩ := hκ.surj c
  have := congrFun h g
  unfold toFn at this
  exact (div_left_inj' (size_ne hκ _)).1 this

/-- function on the group to vector on the classes. -/
noncomputable def ofFn (hκ : Classes G k κ) (F : G → ℂ) (c : Fin k) : ℂ :=
  size κ c * F (Classical.choose (hκ.surj c))

theorem toFn_ofFn (hκ : Classes G k κ) (F : G → ℂ) (hF : IsClassFn F) : toFn κ (ofFn hκ F) = F := by
  funext g
  unfold toFn ofFn
  rw [mul_div_cancel_left₀ _ (size_ne hκ _)]
  obtain ⟨x, hx⟩ := (hκ.conj _ _).1 (Classical.choose_spec (hκ.surj (κ g)))
  have h2 := hF x (Classical.choose (hκ.surj (κ g)))
  rw [← hx] at h2
  exact h2.symm

omit [Group G] in
theorem toFn_smul (κ : G → Fin k) (c : ℂ) (v : Fin k → ℂ) : toFn κ (c • v) = c • toFn κ v := by
  funext g
  simp [toFn, mul_div_assoc]

/-- with distinct eigenvalues, an eigenvector is a multiple of one of the given ones. -/
theorem eigen_unique (M : Matrix (Fin k) (Fin k) ℂ) (w : Fin k → ℂ) (V : Fin k → Fin k → ℂ)
    (hV : ∀ j, V j ≠ 0 ∧ M.mulVec (V j) = w j • V j) (hw : Function.Injective w) (u : Fin k → ℂ) (hu : u ≠ 0) (l : ℂ)
    (hl : M.mulVec u = l • u) : ∃ j, ∃ c : ℂ, c ≠ 0 ∧ l = w j ∧ u = c • V j := by
  classical
  have hli : LinearIndependent ℂ V := by
    refine Module.End.eigenvectors_linearIndependent' (Matrix.toLin' M) w hw V fun j => ?_
    exact ⟨Module.End.mem_eigenspace_iff.2 (by rw [Matrix.toLin'_apply]; exact (hV j).2), (hV j).1⟩
  have hspan : ⊤ ≤ Submodule.span ℂ (Set.range V) := by
    rw [hli.span_eq_top_of_card_eq_finrank' (by simp)]
  let B := Module.Basis.mk hli hspan
  have hB : ∀ j, B j = V j := fun j => by simp [B]
  have hsum : ∑ j, B.repr u j • V j = u := by
    have := B.sum_repr u
    simpa only [hB] using this
  have hM : ∑ j, (B.repr u j * w j) • V j = ∑ j, (l * B.repr u j) • V j := by
    calc ∑ j, (B.repr u j * w j) • V j = (Matrix.toLin' M) (∑ j, B.repr u j • V j) := by
          rw [map_sum]
          refine sum_congr rfl fun j _ => ?_
          rw [map_smul, Matrix.toLin'_apply, (hV j).2, smul_smul]
      _ = l • u := by rw [hsum, Matrix.toLin'_apply, hl]
      _ = _ := by
          conv_lhs => rw [← hsum]
          rw [smul_sum]
          exact sum_congr rfl fun j _ => smul_smul _ _ _
  have hz : ∀ j, B.repr u j * w j - l * B.repr u j = 0 := by
    have h0 : ∑ j, (B.repr u j * w j - l * B.repr u j) • V j = 0 := by
      simp only [sub_smul, sum_sub_distrib, hM, sub_self]
    exact fun j => (Fintype.linearIndependent_iff.1 hli) _ h0 j
  obtain ⟨j, hj⟩ : ∃ j, B.repr u j ≠ 0 := by
    by_contra hcon
    push Not at hcon
    refine hu ?_
    rw [← hsum]
    exact sum_eq_zero fun j _ => by rw [hcon j, zero_smul]
  have hlw : ∀ i, B.repr u i ≠ 0 → w i = l := by
    intro i hi
    have := hz i
    have h2 : B.repr u i * (w i - l) = 0 := by linear_combination this
    rcases mul_eq_zero.1 h2 with h | h
    · exact absurd h hi
    · linear_combination h
  refine ⟨j, B.repr u j, hj, (hlw j hj).symm, ?_⟩
  refine hsum.symm.trans (sum_eq_single j ?_ ?_)
  · intro i _ hij
    have : B.repr u i = 0 := by
      by_contra hne
      exact hij (hw ((hlw i hne).trans (hlw j hj).symm))
    rw [this, zero_smul]
  · simp

/-- a common eigenfunction of all convolutions is a multiple of a solution of the functional equation. -/
theorem spherical_of_scal (F : G → ℂ) (hcF : IsClassFn F) (hF0 : F ≠ 0)
    (hscal : ∀ b, IsClassFn b → ∃ l : ℂ, conv b F = l • F) :
    F 1 ≠ 0 ∧ Spherical fun g => F g / F 1 := by
  classical
  have h1 : F 1 ≠ 0 := by
    intro h1
    refine hF0 ?_
    have hb : IsClassFn fun x => (starRingEnd ℂ) (F x) := fun h x => by simp only [hcF h x]
    obtain ⟨l, hl⟩ := hscal _ hb
    have h2 := congrFun hl 1
    simp only [conv, one_mul, Pi.smul_apply, h1, smul_zero] at h2
    have h3 : ((∑ x, Complex.normSq (F x) : ℝ) : ℂ) = 0 := by
      push_cast
      rw [← h2]
      exact sum_congr rfl fun x _ => by rw [mul_comm, Complex.mul_conj]
    have h4 : ∑ x, Complex.normSq (F x) = 0 := by exact_mod_cast h3
    rw [sum_eq_zero_iff_of_nonneg fun x _ => Complex.normSq_nonneg _] at h4
    funext x
    exact Complex.normSq_eq_zero.1 (h4 x (mem_univ _))
  refine ⟨h1, by simp [h1], fun r g => ?_⟩
  have hbg : IsClassFn fun x => ∑ h, if x = h * g * h⁻¹ then (1 : ℂ) else 0 := by
    intro m x
    refine Fintype.sum_equiv (Equiv.mulLeft m⁻¹) _ _ fun h => ?_
    simp only [Equiv.coe_mulLeft]
    congr 1
    apply propext
    constructor
    · intro e
      calc x = m⁻¹ * (m * x * m⁻¹) * m := by group
        _ = _ := by rw [e]; group
    · intro e
      rw [e]
      group
  have hconv : ∀ r, conv (fun x => ∑ h, if x = h * g * h⁻¹ then (1 : ℂ) else 0) F r = ∑ h, F (r * (h * g * h⁻¹)) := by
    intro r
    unfold conv
    simp only [sum_mul]
    rw [sum_comm]
    refine sum_congr rfl fun h _ => ?_
    simp
  obtain ⟨l, hl⟩ := hscal _ hbg
  have e1 := congrFun hl 1
  have e2 := congrFun hl r
  rw [hconv] at e1 e2
  simp only [one_mul, hcF _ g, sum_const, card_univ, nsmul_eq_mul, Pi.smul_apply, smul_eq_mul] at e1 e2
  rw [← sum_div, e2]
  field_simp
  linear_combination (-F r) * e1

/-- an eigenvector belongs to a solution of the functional equation. -/
theorem eigen_spherical (hκ : Classes G k κ) (a : G → ℂ) (w : Fin k → ℂ) (V : Fin k → Fin k → ℂ)
    (hV : ∀ j, V j ≠ 0 ∧ (clsMatrix κ a).mulVec (V j) = w j • V j) (hw : Function.Injective w) (j : Fin k) :
    toFn κ (V j) 1 ≠ 0 ∧ Spherical fun g => toFn κ (V j) g / toFn κ (V j) 1 := by
  classical
  set F := toFn κ (V j) with hF
  have hcF : IsClassFn F := toFn_classFn hκ _
  have hF0 : F ≠ 0 := by
    intro h
    refine (hV j).1 (toFn_injective hκ _ _ ?_)
    rw [← hF, h]
    funext g
    simp [toFn]
  have hscal : ∀ b, IsClassFn b → ∃ l : ℂ, conv b F = l • F := by
    intro b hb
    by_cases h0 : conv b F = 0
    · exact ⟨0, by rw [h0, zero_smul]⟩
    · have hcb : IsClassFn (conv b F) := conv_classFn b F hb hcF
      have hu : ofFn hκ (conv b F) ≠ 0 := by
        intro h
        refine h0 ?_
        rw [← toFn_ofFn hκ _ hcb, h]
        funext g
        simp [toFn]
      obtain ⟨i, c, hc, hl, hui⟩ := eigen_unique (clsMatrix κ a) w V hV hw (ofFn hκ (conv b F)) hu (w j) (by
        apply toFn_injective hκ
        rw [toFn_mulVec hκ, toFn_smul, toFn_ofFn hκ _ hcb, conv_comm _ _ _ hb, ← toFn_mulVec hκ, (hV j).2, toFn_smul]
        funext r
        simp [conv, mul_sum, hF, mul_left_comm])
      have hij : i = j := hw hl.symm
      subst hij
      refine ⟨c, ?_⟩
      rw [← toFn_ofFn hκ _ hcb, hui, toFn_smul]
  exact spherical_of_scal F hcF hF0 hscal

/-- a solution of the functional equation belongs to an eigenvector. -/
theorem spherical_eigen (hκ : Classes G k κ) (a : G → ℂ) {φ : G → ℂ} (hφ : Spherical φ) :
    ofFn hκ φ ≠ 0 ∧ (clsMatrix κ a).mulVec (ofFn hκ φ) = (∑ x, a x * φ x) • ofFn hκ φ := by
  have hc : IsClassFn φ := fun h x => hφ.conj_inv h x
  constructor
  · intro h
    have h1 : φ 1 = 0 := by
      rw [← toFn_ofFn hκ φ hc, h]
      simp [toFn]
    rw [hφ.one] at h1
    exact one_ne_zero h1
  · apply toFn_injective hκ
    rw [toFn_mulVec hκ, toFn_smul, toFn_ofFn hκ φ hc]
    funext r
    show ∑ x, avg a x * φ (r * x) = _
    rw [hφ.conv _ (avg_classFn a)]
    simp only [Pi.smul_apply, smul_eq_mul]
    congr 1
    unfold avg
    calc ∑ x, (∑ h, a (h * x * h⁻¹)) / (Fintype.card G : ℂ) * φ x
        = (∑ h, ∑ x, a (h * x * h⁻¹) * φ x) / Fintype.card G := by
          rw [sum_comm, sum_div]
          refine sum_congr rfl fun x _ => ?_
          rw [div_mul_eq_mul_div, sum_mul]
      _ = (∑ h : G, ∑ x, a x * φ x) / Fintype.card G := by
          congr 1
          refine sum_congr rfl fun h _ => ?_
          refine Fintype.sum_equiv (MulAut.conj h).toEquiv _ _ fun x => ?_
          simp only [MulEquiv.toEquiv_eq_coe, MulEquiv.coe_toEquiv, MulAut.conj_apply]
          rw [hc h x]
      _ = _ := by
          rw [sum_const, card_univ, nsmul_eq_mul, mul_div_cancel_left₀ _ card_ne]

end Verif.Irrep
