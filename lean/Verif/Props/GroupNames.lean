import Verif.Lemmas.NameNumbers
import Verif.Lemmas.NameSpace
import Mathlib.Analysis.SpecialFunctions.Complex.Arg

/-! C191: names of symmetries. -/

namespace Verif.GroupNames

open Matrix Verif.Isometry
open Verif.Lat (rint)

/-! ## Angles -/

theorem degrees_deg (k : Int) : degrees (deg k) = k := by
  unfold degrees deg
  have : (k : ℝ) * (Real.pi / 180) * (180 / Real.pi) = (k : ℝ) := by
    have := Real.pi_ne_zero
    field_simp
  rw [this, rint_int]

theorem deg_half (k : Int) : deg k / 2 = deg k * (1 / 2) := by ring

theorem deg_neg (k : Int) : deg (-k) = -deg k := by unfold deg; push_cast; ring

theorem deg_180 : deg 180 = Real.pi := by unfold deg; push_cast; ring

theorem deg_pos (k : Int) (h : 1 ≤ k) : 0 < deg k := by
  unfold deg
  have : (1 : ℝ) ≤ (k : ℝ) := by exact_mod_cast h
  have := Real.pi_pos
  positivity

theorem deg_le (j k : Int) (h : j ≤ k) : deg j ≤ deg k := by
  unfold deg
  have : (j : ℝ) ≤ (k : ℝ) := by exact_mod_cast h
  have := Real.pi_pos
  gcongr

theorem deg_lt (j k : Int) (h : j < k) : deg j < deg k := by
  unfold deg
  have : (j : ℝ) < (k : ℝ) := by exact_mod_cast h
  have := Real.pi_pos
  gcongr

theorem sin_deg (k : Int) (h1 : 1 ≤ k) (h2 : k ≤ 179) : 1 / 90 ≤ Real.sin (deg k) := by
  have hp := Real.pi_pos
  have key : ∀ j : Int, 1 ≤ j → j ≤ 90 → 1 / 90 ≤ Real.sin (deg j) := by
    intro j a b
    have e : deg 90 = Real.pi / 2 := by unfold deg; push_cast; ring
    have := Real.mul_le_sin (deg_pos j a).le (by rw [← e]; exact deg_le j 90 b)
    refine le_trans ?_ this
    unfold deg
    have ja : (1 : ℝ) ≤ (j : ℝ) := by exact_mod_cast a
    have : 2 / Real.pi * ((j : ℝ) * (Real.pi / 180)) = (j : ℝ) / 90 := by field_simp; ring
    rw [this]
    linarith
  by_cases h : k ≤ 90
  · exact key k h1 h
  · have e : deg k = Real.pi - deg (180 - k) := by unfold deg; push_cast; ring
    rw [e, Real.sin_pi_sub]
    exact key _ (by omega) (by omega)

theorem cos_deg (k : Int) (h1 : 1 ≤ k) (h2 : k ≤ 179) : 1 / 16200 ≤ 1 - Real.cos (deg k) ∧ 1 / 16200 ≤ 1 + Real.cos (deg k) := by
  have hs := sin_deg k h1 h2
  have e := Real.sin_sq_add_cos_sq (deg k)
  have a := Real.cos_le_one (deg k)
  have b := Real.neg_one_le_cos (deg k)
  constructor <;> nlinarith

theorem one_sub_cos_deg (k : Int) (h1 : -180 < k) (h2 : k ≤ 180) (h0 : k ≠ 0) : 1 / 16200 ≤ 1 - Real.cos (deg k) := by
  by_cases h : k = 180
  · rw [h, deg_180, Real.cos_pi]; norm_num
  · rcases lt_or_gt_of_ne h0 with hk | hk
    · have := (cos_deg (-k) (by omega) (by omega)).1
      rwa [deg_neg, Real.cos_neg] at this
    · exact (cos_deg k (by omega) (by omega)).1

theorem arg_deg (t : ℝ) (h1 : -Real.pi < t) (h2 : t ≤ Real.pi) : Complex.arg ⟨Real.cos t, Real.sin t⟩ = t := by
  have e : (⟨Real.cos t, Real.sin t⟩ : ℂ) = Complex.cos t + Complex.sin t * Complex.I := by
    apply Complex.ext <;> simp [Complex.cos_ofReal_re, Complex.sin_ofReal_re, Complex.cos_ofReal_im, Complex.sin_ofReal_im]
  rw [e]
  exact Complex.arg_cos_add_sin_mul_I ⟨h1, h2⟩

theorem close_self (x : ℝ) : close x x := by unfold close; rw [sub_self, abs_zero]; exact tol_pos.le

theorem tol_val : tol = 1 / 1000000 := by unfold tol; norm_num

theorem not_close_neg : ¬ close (-1) 1 := by
  unfold close
  rw [tol_val]
  norm_num

/-! ## C191: numbers, directions, origins -/

/-- C191: every coordinate is printed to within `1/2000`; fractions with denominators up to 99, and small multiples of `√3` by such fractions, exactly and
    in lowest terms. -/
theorem C191_number :
    (∀ x, |(toRational x).val - x| ≤ 1 / 2000) ∧ (∀ x, Nice x → (toRational x).val = x) ∧
    (∀ r : ℚ, r.den ≤ 99 → toRational r = if r.den = 1 then .int r.num else .frac r.num r.den) ∧
    (∀ r : ℚ, r ≠ 0 → r.den ≤ 99 → r.num.natAbs * r.den ≤ 2500 → toRational (r * Real.sqrt 3) = .root3 r.num r.den) := by
  refine ⟨approx_val, nice_val, fun r hr => ?_, fun r h0 hr hb => ?_⟩
  · unfold toRational
    rw [toRat_rat r hr]
    simp only [mkFrac]
    by_cases h : r.den = 1 <;> simp [h]
  · unfold toRational
    rw [toRat_root3 r h0 hb]
    have e : (r : ℝ) * Real.sqrt 3 / Real.sqrt 3 = (r : ℝ) := by
      have : Real.sqrt 3 ≠ 0 := by positivity
      field_simp
    simp only [e, toRat_rat r hr]

/-- C191: an axis along a lattice direction is printed as the integer vector without common factor which points in the same direction. -/
theorem C191_direction (m : Fin 3 → Int) (h : Prim m) (c : ℝ) (hc : 0 < c) :
    toIntVector (fun i => c * (m i : ℝ)) = .int (m 0) (m 1) (m 2) := by
  unfold toIntVector
  rw [toInts_prim m h c hc _ fun _ => rfl]

/-- C191: for every isometry whose eigenvalues are told apart from one, `_origin_trans` finds the point nearest to the origin about which the isometry is its
    linear part followed by a translation which commutes with it, and this translation; there is only one such pair. -/
theorem C191_origin_trans {d : Nat} (eig : Eig d) (W : Matrix (Fin d) (Fin d) ℝ) (hW : Wᵀ * W = 1) (w : Fin d → ℝ)
    (h : IsSchur (1 - W) (eig (1 - W)).1 (eig (1 - W)).2) (hs : ∀ j, ‖(eig (1 - W)).1 j j‖ ≤ 1 / 10 ^ 6 → (eig (1 - W)).1 j j = 0) (o t : Fin d → ℝ) :
    About W w o t ↔ originTrans eig W w = (o, t) := by
  have ha := originTrans_about eig W hW w h hs
  constructor
  · intro h'
    obtain ⟨e1, e2⟩ := about_unique W hW w _ _ _ _ ha h'
    exact Prod.ext e1 e2
  · intro e
    rw [e] at ha
    exact ha

/-! ## The plane -/

theorem rot2_orth (t : ℝ) : (rot2 t)ᵀ * rot2 t = 1 := by
  have := Real.sin_sq_add_cos_sq t
  ext i j
  fin_cases i <;> fin_cases j <;> simp [rot2, Matrix.mul_apply, Fin.sum_univ_two] <;> first | linear_combination this | ring

theorem refl2_orth (t : ℝ) : (refl2 t)ᵀ * refl2 t = 1 := by
  have := Real.sin_sq_add_cos_sq (2 * t)
  ext i j
  fin_cases i <;> fin_cases j <;> simp [refl2, Matrix.mul_apply, Fin.sum_univ_two] <;> first | linear_combination this | ring

theorem rot2_det (t : ℝ) : (rot2 t).det = 1 := by
  have := Real.sin_sq_add_cos_sq t
  rw [Matrix.det_fin_two]
  simp [rot2]
  linear_combination this

theorem refl2_det (t : ℝ) : (refl2 t).det = -1 := by
  have := Real.sin_sq_add_cos_sq (2 * t)
  rw [Matrix.det_fin_two]
  simp [refl2]
  linear_combination -this

theorem col_ne {d : Nat} (M : Matrix (Fin d) (Fin d) ℝ) (T v : Matrix (Fin d) (Fin d) ℂ) (h : IsSchur M T v) (j : Fin d) : ∃ i, v i j ≠ 0 := by
  by_contra hc
  push Not at hc
  have := schur_unit _ T v h j
  simp [hc] at this

/-- eigenvalues of `1 - W` for rotations of the plane. -/
theorem rot2_values (t : ℝ) (T v : Matrix (Fin 2) (Fin 2) ℂ) (h : IsSchur (1 - rot2 t) T v) (j : Fin 2) :
    T j j = ⟨1 - Real.cos t, Real.sin t⟩ ∨ T j j = ⟨1 - Real.cos t, -Real.sin t⟩ := by
  have hcol := fun i => schur_col _ (sub_normal _ (rot2_orth t)) T v h i j
  obtain ⟨i, hi⟩ := col_ne _ T v h j
  have e0 := hcol 0
  have e1 := hcol 1
  simp [rot2, Fin.sum_univ_two] at e0 e1
  have f0 : ((T j j - (1 - Complex.cos t)) ^ 2 + (Complex.sin t) ^ 2) * v 0 j = 0 := by
    linear_combination -(T j j - (1 - Complex.cos t)) * e0 - (Complex.sin t) * e1
  have f1 : ((T j j - (1 - Complex.cos t)) ^ 2 + (Complex.sin t) ^ 2) * v 1 j = 0 := by
    linear_combination -(T j j - (1 - Complex.cos t)) * e1 + (Complex.sin t) * e0
  have f : (T j j - (1 - Complex.cos t)) ^ 2 + (Complex.sin t) ^ 2 = 0 := by
    fin_cases i
    · exact (mul_eq_zero.1 f0).resolve_right hi
    · exact (mul_eq_zero.1 f1).resolve_right hi
  have g : (T j j - (1 - Complex.cos t) - Complex.sin t * Complex.I) * (T j j - (1 - Complex.cos t) + Complex.sin t * Complex.I) = 0 := by
    linear_combination f - (Complex.sin t) ^ 2 * Complex.I_sq
  rcases mul_eq_zero.1 g with g | g
  · left
    have : T j j = (1 - Complex.cos t) + Complex.sin t * Complex.I := by linear_combination g
    rw [this]
    apply Complex.ext <;> simp [Complex.cos_ofReal_re, Complex.sin_ofReal_re, Complex.cos_ofReal_im, Complex.sin_ofReal_im]
  · right
    have : T j j = (1 - Complex.cos t) - Complex.sin t * Complex.I := by linear_combination g
    rw [this]
    apply Complex.ext <;> simp [Complex.cos_ofReal_re, Complex.sin_ofReal_re, Complex.cos_ofReal_im, Complex.sin_ofReal_im]

/-- eigenvalues of `1 - W` for reflections of the plane. -/
theorem refl2_values (t : ℝ) (T v : Matrix (Fin 2) (Fin 2) ℂ) (h : IsSchur (1 - refl2 t) T v) (j : Fin 2) : T j j = 0 ∨ T j j = 2 := by
  have hcol := fun i => schur_col _ (sub_normal _ (refl2_orth t)) T v h i j
  obtain ⟨i, hi⟩ := col_ne _ T v h j
  have e0 := hcol 0
  have e1 := hcol 1
  have hcs : Complex.sin (2 * t) ^ 2 + Complex.cos (2 * t) ^ 2 = 1 := Complex.sin_sq_add_cos_sq _
  simp [refl2, Fin.sum_univ_two] at e0 e1
  have f0 : (T j j * (T j j - 2)) * v 0 j = 0 := by
    linear_combination -(T j j - 1 - Complex.cos (2 * t)) * e0 + (Complex.sin (2 * t)) * e1 + v 0 j * hcs
  have f1 : (T j j * (T j j - 2)) * v 1 j = 0 := by
    linear_combination -(T j j - 1 + Complex.cos (2 * t)) * e1 + (Complex.sin (2 * t)) * e0 + v 1 j * hcs
  have f : T j j * (T j j - 2) = 0 := by
    fin_cases i
    · exact (mul_eq_zero.1 f0).resolve_right hi
    · exact (mul_eq_zero.1 f1).resolve_right hi
  rcases mul_eq_zero.1 f with f | f
  · exact Or.inl f
  · exact Or.inr (sub_eq_zero.1 f)

/-- the given decomposition is the computed one, also without a translation vector. -/
theorem placed {d : Nat} (eig : Eig d) (W : Matrix (Fin d) (Fin d) ℝ) (hW : Wᵀ * W = 1) (w : Option (Fin d → ℝ))
    (h : IsSchur (1 - W) (eig (1 - W)).1 (eig (1 - W)).2) (hs : ∀ j, czero ((eig (1 - W)).1 j j) → (eig (1 - W)).1 j j = 0) (o t : Fin d → ℝ)
    (ha : About W (w.getD 0) o t) : originTransOpt eig W w = (o, t) := by
  match w with
  | none =>
    have h0 : About W (0 : Fin d → ℝ) 0 0 := ⟨fun x => by simp, by simp, fun k _ => by simp⟩
    obtain ⟨e1, e2⟩ := about_unique W hW _ _ _ _ _ h0 ha
    rw [← e1, ← e2]
    rfl
  | some w =>
    obtain ⟨e1, e2⟩ := about_unique W hW _ _ _ _ _ (originTrans_about eig W hW w h hs) ha
    exact Prod.ext e1 e2

theorem czero_big (z : ℂ) (h : 1 / 16200 ≤ z.re) : ¬ czero z := by
  intro hc
  unfold czero at hc
  rw [tol_val] at hc
  have := (Complex.abs_re_le_norm z).trans hc
  rw [abs_le] at this
  have := this.2
  norm_num at h this
  linarith

theorem rot2_sharp (t : ℝ) (ht : (Real.cos t = 1) ∨ 1 / 16200 ≤ 1 - Real.cos t) (T v : Matrix (Fin 2) (Fin 2) ℂ) (h : IsSchur (1 - rot2 t) T v) (j : Fin 2)
    (hz : czero (T j j)) : T j j = 0 := by
  have hv := rot2_values t T v h j
  rcases ht with ht | ht
  · have hs : Real.sin t = 0 := by
      have := Real.sin_sq_add_cos_sq t
      rw [ht] at this
      exact pow_eq_zero_iff two_ne_zero |>.1 (by linarith)
    rw [ht, hs] at hv
    rcases hv with hv | hv <;> rw [hv] <;> apply Complex.ext <;> simp
  · exfalso
    refine czero_big (T j j) ?_ hz
    rcases hv with hv | hv <;> rw [hv] <;> exact ht

theorem refl2_sharp (t : ℝ) (T v : Matrix (Fin 2) (Fin 2) ℂ) (h : IsSchur (1 - refl2 t) T v) (j : Fin 2) (hz : czero (T j j)) : T j j = 0 := by
  rcases refl2_values t T v h j with hv | hv
  · exact hv
  · exfalso
    refine czero_big (T j j) ?_ hz
    rw [hv]
    norm_num

theorem name2_proper (eig : Eig 2) (W : Matrix (Fin 2) (Fin 2) ℝ) (w : Option (Fin 2 → ℝ)) (o t : Fin 2 → ℝ) (hd : W.det = 1)
    (hp : originTransOpt eig W w = (o, t)) :
    (mclose W 1 → name2 eig W w = .ok (shift2 (transPart t))) ∧
    (¬ mclose W 1 → name2 eig W w = .ok (.rot (degrees (arctan2 (W 1 0) (W 0 0))) (originPart o))) := by
  have hc : close W.det 1 := by rw [hd]; exact close_self 1
  unfold name2
  rw [hp]
  dsimp only
  rw [if_pos hc]
  exact ⟨fun h => if_pos h, fun h => if_neg h⟩

theorem name2_improper (eig : Eig 2) (W : Matrix (Fin 2) (Fin 2) ℝ) (w : Option (Fin 2 → ℝ)) (o t : Fin 2 → ℝ) (hd : W.det = -1)
    (hp : originTransOpt eig W w = (o, t)) :
    name2 eig W w = .ok (mirror2 (degrees (arctan2 (W 1 0) (W 0 0) / 2)) (originPart o) (transPart t)) := by
  have hc : ¬ close W.det 1 := by rw [hd]; exact not_close_neg
  have hc' : close W.det (-1) := by rw [hd]; exact close_self _
  unfold name2
  rw [hp]
  dsimp only
  rw [if_neg hc, if_pos hc']

section plane
variable (eig : Eig 2) (w : Option (Fin 2 → ℝ)) (o t : Fin 2 → ℝ) (ho : ∀ i, Nice (o i)) (ht : ∀ i, Nice (t i))
include ho ht

omit ho in
/-- C191: in the plane, the identity and the translations are named as such, with the vector. -/
theorem C191_plane_translation (W : Matrix (Fin 2) (Fin 2) ℝ) (hW : W = 1) (hS : IsSchur (1 - W) (eig (1 - W)).1 (eig (1 - W)).2)
    (ha : About W (w.getD 0) 0 t) : ∃ T, name2 eig W w = .ok (shift2 T) ∧ Denotes T t := by
  have e : rot2 0 = 1 := by ext i j; fin_cases i <;> fin_cases j <;> simp [rot2]
  obtain rfl := hW.trans e.symm
  have hp := placed eig _ (rot2_orth 0) w hS (rot2_sharp 0 (Or.inl Real.cos_zero) _ _ hS) 0 t ha
  refine ⟨transPart t, (name2_proper eig _ w _ _ (rot2_det 0) hp).1 ?_, originPart_denotes t ht⟩
  rw [e]
  exact fun i j => close_self _

omit ht in
/-- C191: a rotation of the plane by a whole number of degrees is named with this number (between -179 and 180) and its centre. -/
theorem C191_plane_rotation (k : Int) (h1 : -180 < k) (h2 : k ≤ 180) (h0 : k ≠ 0)
    (hS : IsSchur (1 - rot2 (deg k)) (eig (1 - rot2 (deg k))).1 (eig (1 - rot2 (deg k))).2) (ha : About (rot2 (deg k)) (w.getD 0) o 0) :
    ∃ O, name2 eig (rot2 (deg k)) w = .ok (.rot k O) ∧ Denotes O o := by
  have hc := one_sub_cos_deg k h1 h2 h0
  have hp := placed eig _ (rot2_orth _) w hS (rot2_sharp _ (Or.inr hc) _ _ hS) o 0 ha
  refine ⟨originPart o, ?_, originPart_denotes o ho⟩
  rw [(name2_proper eig _ w _ _ (rot2_det _) hp).2]
  · have e : arctan2 (rot2 (deg k) 1 0) (rot2 (deg k) 0 0) = deg k := by
      unfold arctan2
      have : (⟨rot2 (deg k) 0 0, rot2 (deg k) 1 0⟩ : ℂ) = ⟨Real.cos (deg k), Real.sin (deg k)⟩ := by simp [rot2]
      rw [this]
      refine arg_deg _ ?_ ?_
      · have := deg_lt (-180) k h1
        rwa [deg_neg, deg_180] at this
      · have := deg_le k 180 h2
        rwa [deg_180] at this
    rw [e, degrees_deg]
  · intro hm
    have := hm 0 0
    unfold close at this
    simp [rot2, tol_val] at this
    rw [abs_le] at this
    norm_num at hc this
    linarith [this.1]

/-- C191: a reflection of the plane in a line at a whole number of degrees is named with this number (between -89 and 90) and the point of the line
    nearest to the origin, a glide reflection with the translation along the line instead of the angle. -/
theorem C191_plane_reflection (k : Int) (h1 : -90 < k) (h2 : k ≤ 90)
    (hS : IsSchur (1 - refl2 (deg k)) (eig (1 - refl2 (deg k))).1 (eig (1 - refl2 (deg k))).2) (ha : About (refl2 (deg k)) (w.getD 0) o t) :
    ∃ O T, name2 eig (refl2 (deg k)) w = .ok (mirror2 k O T) ∧ Denotes O o ∧ Denotes T t := by
  have hp := placed eig _ (refl2_orth _) w hS (refl2_sharp _ _ _ hS) o t ha
  refine ⟨originPart o, transPart t, ?_, originPart_denotes o ho, originPart_denotes t ht⟩
  rw [name2_improper eig _ w _ _ (refl2_det _) hp]
  have e : arctan2 (refl2 (deg k) 1 0) (refl2 (deg k) 0 0) / 2 = deg k := by
    unfold arctan2
    have : (⟨refl2 (deg k) 0 0, refl2 (deg k) 1 0⟩ : ℂ) = ⟨Real.cos (2 * deg k), Real.sin (2 * deg k)⟩ := by simp [refl2]
    have e2 : 2 * deg k = deg (2 * k) := by unfold deg; push_cast; ring
    rw [this, e2, arg_deg]
    · rw [← e2]; ring
    · have := deg_lt (-180) (2 * k) (by omega)
      rwa [deg_neg, deg_180] at this
    · have := deg_le (2 * k) 180 (by omega)
      rwa [deg_180] at this
  rw [e, degrees_deg]

end plane

/-! ## Space -/

/-- `c + s n× + g n nᵀ` with the decisions on its eigenvalues correct. -/
theorem gen_placed (eig : Eig 3) (n : Fin 3 → ℝ) (hn : n ⬝ᵥ n = 1) (c s g : ℝ) (h1 : c ^ 2 + s ^ 2 = 1) (h2 : c + g = 1 ∨ c + g = -1)
    (hc : c = 1 ∨ 1 / 16200 ≤ 1 - c) (w : Option (Fin 3 → ℝ)) (hS : IsSchur (1 - gen n c s g) (eig (1 - gen n c s g)).1 (eig (1 - gen n c s g)).2)
    (o t : Fin 3 → ℝ) (ha : About (gen n c s g) (w.getD 0) o t) : originTransOpt eig (gen n c s g) w = (o, t) := by
  have h2' : (c + g) ^ 2 = 1 := by rcases h2 with h | h <;> rw [h] <;> norm_num
  refine placed eig _ (gen_orth n hn c s g h1 h2') w hS ?_ o t ha
  intro j hz
  generalize eig (1 - gen n c s g) = r at hS hz
  obtain ⟨T, v⟩ := r
  simp only at hS hz ⊢
  rw [one_sub_gen] at hS
  have hv := gen_values n hn (1 - c) (-s) (-g) T v hS j
  have e : ((1 - c + -g : ℝ) : ℂ) = ((1 - (c + g) : ℝ) : ℂ) := by congr 1; ring
  rw [e] at hv
  rcases hv with hv | hv | hv
  · rcases h2 with h | h
    · rw [hv, h]; simp
    · exfalso
      refine czero_big (T j j) ?_ hz
      rw [hv, h]
      norm_num
  · rcases hc with hc | hc
    · have hs : s = 0 := by
        rw [hc] at h1
        exact pow_eq_zero_iff two_ne_zero |>.1 (by linarith)
      rw [hv, hc, hs]
      apply Complex.ext <;> simp
    · exfalso
      refine czero_big (T j j) ?_ hz
      rw [hv]
      exact hc
  · rcases hc with hc | hc
    · have hs : s = 0 := by
        rw [hc] at h1
        exact pow_eq_zero_iff two_ne_zero |>.1 (by linarith)
      rw [hv, hc, hs]
      apply Complex.ext <;> simp
    · exfalso
      refine czero_big (T j j) ?_ hz
      rw [hv]
      exact hc

/-- the trace of a matrix close to a multiple of the identity. -/
theorem mclose_trace (W : Matrix (Fin 3) (Fin 3) ℝ) (a : ℝ) (h : ∀ i, close (W i i) a) : |W.trace - 3 * a| ≤ 3 / 1000000 := by
  have h0 := h 0
  have h1 := h 1
  have h2 := h 2
  unfold close at h0 h1 h2
  rw [tol_val, abs_le] at h0 h1 h2
  have : W.trace = W 0 0 + W 1 1 + W 2 2 := by simp [Matrix.trace, Fin.sum_univ_three]
  rw [this, abs_le]
  constructor <;> linarith [h0.1, h0.2, h1.1, h1.2, h2.1, h2.2]

theorem neg_one_gen : (-1 : Matrix (Fin 3) (Fin 3) ℝ) = gen ![1, 0, 0] (-1) 0 0 := by
  ext i j
  fin_cases i <;> fin_cases j <;> simp [gen]

theorem one_gen : (1 : Matrix (Fin 3) (Fin 3) ℝ) = gen ![1, 0, 0] 1 0 0 := by
  ext i j
  fin_cases i <;> fin_cases j <;> simp [gen]

/-- a fixed vector of a rotation is along the axis. -/
theorem fix_axis (n : Fin 3 → ℝ) (hn : n ⬝ᵥ n = 1) (c s g : ℝ) (hc : c ≠ 1) (h1 : c ^ 2 + s ^ 2 = 1) (t : Fin 3 → ℝ) (h : gen n c s g *ᵥ t = t)
    (hg : c + g = 1) : t = (n ⬝ᵥ t) • n := by
  have e0 := congrFun h 0
  have e1 := congrFun h 1
  have e2 := congrFun h 2
  simp only [dotProduct, Fin.sum_univ_three] at hn
  have eg : g = 1 - c := by linarith
  subst eg
  simp [gen, Matrix.mulVec, dotProduct, Fin.sum_univ_three] at e0 e1 e2
  set D := n 0 * t 0 + n 1 * t 1 + n 2 * t 2 with hD
  have hne : 1 - c ≠ 0 := sub_ne_zero.2 (Ne.symm hc)
  -- the part orthogonal to the axis
  have q0 : (1 - c) * (t 0 - D * n 0) = s * (n 1 * t 2 - n 2 * t 1) := by linear_combination -e0
  have q1 : (1 - c) * (t 1 - D * n 1) = s * (n 2 * t 0 - n 0 * t 2) := by linear_combination -e1
  have q2 : (1 - c) * (t 2 - D * n 2) = s * (n 0 * t 1 - n 1 * t 0) := by linear_combination -e2
  have hq : (1 - c) * ((t 0 - D * n 0) ^ 2 + (t 1 - D * n 1) ^ 2 + (t 2 - D * n 2) ^ 2) = 0 := by
    linear_combination (t 0 - D * n 0) * q0 + (t 1 - D * n 1) * q1 + (t 2 - D * n 2) * q2
  have hz := (mul_eq_zero.1 hq).resolve_left hne
  have z0 : t 0 - D * n 0 = 0 := pow_eq_zero_iff two_ne_zero |>.1 (le_antisymm (by linarith [sq_nonneg (t 1 - D * n 1), sq_nonneg (t 2 - D * n 2)]) (sq_nonneg _))
  have z1 : t 1 - D * n 1 = 0 := pow_eq_zero_iff two_ne_zero |>.1 (le_antisymm (by linarith [sq_nonneg (t 0 - D * n 0), sq_nonneg (t 2 - D * n 2)]) (sq_nonneg _))
  have z2 : t 2 - D * n 2 = 0 := pow_eq_zero_iff two_ne_zero |>.1 (le_antisymm (by linarith [sq_nonneg (t 0 - D * n 0), sq_nonneg (t 1 - D * n 1)]) (sq_nonneg _))
  have eD : n ⬝ᵥ t = D := by simp [dotProduct, Fin.sum_univ_three, hD]
  rw [eD]
  funext i
  fin_cases i
  · simpa using sub_eq_zero.1 z0
  · simpa using sub_eq_zero.1 z1
  · simpa using sub_eq_zero.1 z2

/-- the column of the simple real eigenvalue `a` has real entries, as computed for a real matrix. -/
def RealColumn (eig : Eig 3) (W : Matrix (Fin 3) (Fin 3) ℝ) (a : ℝ) : Prop := ∀ j, (eig W).1 j j = (a : ℂ) → ∀ i, ((eig W).2 i j).im = 0

theorem name3_proper (eig : Eig 3) (W : Matrix (Fin 3) (Fin 3) ℝ) (w : Option (Fin 3 → ℝ)) (o t : Fin 3 → ℝ) (hd : W.det = 1)
    (hp : originTransOpt eig W w = (o, t)) : name3 eig W w = proper3 eig W t (originPart o) := by
  have hc : close W.det 1 := by rw [hd]; exact close_self 1
  unfold name3
  rw [hp]
  dsimp only
  rw [if_pos hc]

theorem name3_improper (eig : Eig 3) (W : Matrix (Fin 3) (Fin 3) ℝ) (w : Option (Fin 3 → ℝ)) (o t : Fin 3 → ℝ) (hd : W.det = -1)
    (hp : originTransOpt eig W w = (o, t)) : name3 eig W w = improper3 eig W t (originPart o) := by
  have hc : ¬ close W.det 1 := by rw [hd]; exact not_close_neg
  have hc' : close W.det (-1) := by rw [hd]; exact close_self _
  unfold name3
  rw [hp]
  dsimp only
  rw [if_neg hc, if_pos hc']

/-- a rotation by 1 to 179 degrees is neither close to the identity nor to a half turn. -/
theorem rot_far (n : Fin 3 → ℝ) (hn : n ⬝ᵥ n = 1) (c s : ℝ) (h1 : 1 / 16200 ≤ 1 - c) :
    ¬ mclose (gen n c s (1 - c)) 1 ∧ (1 / 16200 ≤ 1 + c → ¬ close (gen n c s (1 - c)).trace (-1)) := by
  have htr : (gen n c s (1 - c)).trace = 1 + 2 * c := by rw [gen_trace n hn]; ring
  constructor
  · intro hcl
    have := mclose_trace _ 1 fun i => by have := hcl i i; rwa [Matrix.one_apply_eq] at this
    rw [htr, abs_le] at this
    norm_num at this h1
    linarith [this.1]
  · intro h2 hcl
    unfold close at hcl
    rw [tol_val, htr, abs_le] at hcl
    norm_num at h2 hcl
    linarith [hcl.2]

theorem vzero_zero : vzero (0 : Fin 3 → ℝ) := fun _ => close_self _

theorem arg_deg' (k : Int) (h1 : 1 ≤ k) (h2 : k ≤ 179) : Complex.arg ⟨Real.cos (deg k), Real.sin (deg k)⟩ = deg k :=
  arg_deg _ (by have := deg_pos k h1; have := Real.pi_pos; linarith) (by have := deg_le k 180 (by omega); rwa [deg_180] at this)

/-- the direction printed for a multiple of the axis. -/
theorem dir_smul (m : Fin 3 → Int) (hm : Prim m) (r : ℝ) (hr : 0 < r) (n : Fin 3 → ℝ) (hnm : ∀ i, n i = r * (m i : ℝ)) (q : ℝ) (hq : 0 < q) :
    toIntVector (q • n) = .int (m 0) (m 1) (m 2) := by
  have : (q • n) = fun i => (q * r) * (m i : ℝ) := by funext i; simp [hnm]; ring
  rw [this]
  exact C191_direction m hm _ (mul_pos hq hr)

/-- the direction printed for the opposite of the axis. -/
theorem dir_neg (m : Fin 3 → Int) (hm : Prim m) (r : ℝ) (hr : 0 < r) (n : Fin 3 → ℝ) (hnm : ∀ i, n i = r * (m i : ℝ)) :
    toIntVector (-n) = .int (-m 0) (-m 1) (-m 2) := by
  have hm' : Prim fun i => -m i := ⟨fun d hd => hm.gcd d fun i => (dvd_neg.1 (hd i)), by simpa using hm.small⟩
  have : (-n) = fun i => r * ((-m i : Int) : ℝ) := by funext i; simp [hnm]
  rw [this]
  exact C191_direction (fun i => -m i) hm' r hr

theorem dir_self (m : Fin 3 → Int) (hm : Prim m) (r : ℝ) (hr : 0 < r) (n : Fin 3 → ℝ) (hnm : ∀ i, n i = r * (m i : ℝ)) :
    toIntVector n = .int (m 0) (m 1) (m 2) := by
  have := dir_smul m hm r hr n hnm 1 one_pos
  rwa [one_smul] at this

/-- the first index selected by a filter. -/
theorem filter_head (p : Fin 3 → Bool) (i : Fin 3) (h : p i = true) (h' : ∀ k, k < i → p k = false) : ∃ l, (List.finRange 3).filter p = i :: l := by
  have e : List.finRange 3 = [0, 1, 2] := by decide
  rw [e]
  fin_cases i
  · have h : p 0 = true := h
    exact ⟨[1, 2].filter p, by rw [List.filter_cons_of_pos h]; rfl⟩
  · have h : p 1 = true := h
    exact ⟨[2].filter p, by
      rw [List.filter_cons_of_neg (by rw [h' 0 (by decide)]; decide), List.filter_cons_of_pos h]; rfl⟩
  · have h : p 2 = true := h
    exact ⟨[], by
      rw [List.filter_cons_of_neg (by rw [h' 0 (by decide)]; decide), List.filter_cons_of_neg (by rw [h' 1 (by decide)]; decide),
        List.filter_cons_of_pos h]; rfl⟩

/-- the first nonzero integer is positive. -/
def Positive (m : Fin 3 → Int) : Prop := ∃ i, 0 < m i ∧ ∀ k, k < i → m k = 0

/-- nonzero components of a unit vector along a small integer vector are not small. -/
theorem unit_big (m : Fin 3 → Int) (hm : Prim m) (r : ℝ) (hr : 0 < r) (n : Fin 3 → ℝ) (hnm : ∀ i, n i = r * (m i : ℝ)) (hn : n ⬝ᵥ n = 1) : 1 / 99 ≤ r := by
  simp only [dotProduct, Fin.sum_univ_three, hnm] at hn
  have hs : |(m 0 : ℝ)| + |(m 1 : ℝ)| + |(m 2 : ℝ)| ≤ 99 := by exact_mod_cast hm.small
  have h0 := abs_nonneg (m 0 : ℝ)
  have h1 := abs_nonneg (m 1 : ℝ)
  have h2 := abs_nonneg (m 2 : ℝ)
  have e0 := abs_mul_abs_self (m 0 : ℝ)
  have e1 := abs_mul_abs_self (m 1 : ℝ)
  have e2 := abs_mul_abs_self (m 2 : ℝ)
  have hsq : (m 0 : ℝ) * m 0 + m 1 * m 1 + m 2 * m 2 ≤ 99 * 99 := by
    rw [← e0, ← e1, ← e2]
    nlinarith [mul_nonneg h0 h1, mul_nonneg h0 h2, mul_nonneg h1 h2]
  by_contra hc
  rw [not_le] at hc
  have hrr : r * r < 1 / 99 * (1 / 99) := mul_lt_mul'' hc hc hr.le hr.le
  have : r * r * ((m 0 : ℝ) * m 0 + m 1 * m 1 + m 2 * m 2) = 1 := by linear_combination hn
  have hpos : 0 ≤ (m 0 : ℝ) * m 0 + m 1 * m 1 + m 2 * m 2 := by linarith [mul_self_nonneg (m 0 : ℝ), mul_self_nonneg (m 1 : ℝ), mul_self_nonneg (m 2 : ℝ)]
  nlinarith

open Classical in
/-- the convention on the sign of the normal of a mirror plane. -/
theorem orient_eq (m : Fin 3 → Int) (hm : Prim m) (hpos : Positive m) (r : ℝ) (hr : 0 < r) (n : Fin 3 → ℝ) (hnm : ∀ i, n i = r * (m i : ℝ)) (hn : n ⬝ᵥ n = 1)
    (a : Fin 3 → ℝ) (ha : a = n ∨ a = -n) : orient a = .ok n := by
  obtain ⟨i, hi, hk⟩ := hpos
  have hb := unit_big m hm r hr n hnm hn
  have hni : 0 < n i := by rw [hnm]; have : (0 : ℝ) < (m i : ℝ) := by exact_mod_cast hi
                           positivity
  have hbig : ¬ close (a i) 0 := by
    intro hc
    unfold close at hc
    rw [sub_zero, tol_val] at hc
    have e : |a i| = n i := by rcases ha with rfl | rfl <;> simp [abs_of_pos hni]
    rw [e, hnm] at hc
    have : (1 : ℝ) ≤ (m i : ℝ) := by exact_mod_cast hi
    norm_num at hb hc
    nlinarith
  obtain ⟨l, hl⟩ := filter_head (fun i => decide (¬ close (a i) 0)) i (decide_eq_true hbig) (by
    intro k hki
    simp only [decide_eq_false_iff_not, not_not]
    have : a k = 0 := by rcases ha with rfl | rfl <;> simp [hnm, hk k hki]
    rw [this]
    exact close_self 0)
  unfold orient
  rw [hl]
  simp only
  congr 1
  funext j
  rcases ha with rfl | rfl
  · rw [sign_pos hni]; simp
  · rw [Pi.neg_apply, Pi.neg_apply, sign_neg (by linarith : -n i < 0)]; simp

section space
variable (eig : Eig 3) (W : Matrix (Fin 3) (Fin 3) ℝ) (hS : IsSchur W (eig W).1 (eig W).2) (hS' : IsSchur (1 - W) (eig (1 - W)).1 (eig (1 - W)).2)
  (w : Option (Fin 3 → ℝ)) (o t : Fin 3 → ℝ) (ho : ∀ i, Nice (o i)) (ht : ∀ i, Nice (t i)) (n : Fin 3 → ℝ) (hn : n ⬝ᵥ n = 1)

include hS' ht in
/-- C191: in space, the identity and the translations are named as such, with the vector. -/
theorem C191_space_translation (hW : W = 1) (ha : About W (w.getD 0) 0 t) :
    (t = 0 → name3 eig W w = .ok .id) ∧ (t ≠ 0 → ∃ T, name3 eig W w = .ok (.translation T) ∧ Denotes (some T) t) := by
  have hm : mclose W 1 := by rw [hW]; exact fun i j => close_self _
  have hd : W.det = 1 := by rw [hW, Matrix.det_one]
  obtain rfl := hW.trans one_gen
  have hp := gen_placed eig _ (by simp [dotProduct, Fin.sum_univ_three]) 1 0 0 (by norm_num) (Or.inl (by norm_num)) (Or.inl rfl) w hS' 0 t ha
  rw [name3_proper eig _ w _ _ hd hp]
  unfold proper3
  rw [if_pos hm]
  constructor
  · intro h0
    rw [if_pos ((vzero_iff t ht).2 h0)]
  · intro h0
    rw [if_neg fun hz => h0 ((vzero_iff t ht).1 hz)]
    exact ⟨_, rfl, h0, fun i => nice_val _ (ht i)⟩

include hS hS' ho hn in
/-- C191: a rotation of space by 1 to 179 degrees is named with this number, its axis (pointing so that the rotation is right-handed), and the point of
    the axis nearest to the origin. -/
theorem C191_space_rotation (k : Int) (h1 : 1 ≤ k) (h2 : k ≤ 179) (hW : IsRot3 W n (deg k)) (m : Fin 3 → Int) (hm : Prim m) (r : ℝ) (hr : 0 < r)
    (hnm : ∀ i, n i = r * (m i : ℝ)) (ha : About W (w.getD 0) o 0) :
    ∃ O, name3 eig W w = .ok (.rot k (.int (m 0) (m 1) (m 2)) O) ∧ Denotes O o := by
  have hc := cos_deg k h1 h2
  have hs := sin_deg k h1 h2
  have hcs : Real.cos (deg k) ^ 2 + Real.sin (deg k) ^ 2 = 1 := Real.cos_sq_add_sin_sq _
  have htol : tol < Real.sin (deg k) := by rw [tol_val]; norm_num at hs ⊢; linarith
  obtain rfl := rot_gen W n _ hW
  have hp := gen_placed eig n hn _ _ _ hcs (Or.inl (by ring)) (Or.inr hc.1) w hS' o 0 ha
  obtain ⟨j, hj, hT⟩ := gen_pos n hn _ _ _ _ _ hS htol (by have := hc.1; intro e; norm_num at this; linarith)
  obtain ⟨q, hq, hax⟩ := gen_axis n hn _ _ _ _ _ hS htol j hT
  obtain ⟨f1, f2⟩ := rot_far n hn _ (Real.sin (deg k)) hc.1
  refine ⟨originPart o, ?_, originPart_denotes o ho⟩
  rw [name3_proper eig _ w _ _ (by rw [gen_det n hn, hcs]; ring) hp]
  unfold proper3
  rw [if_neg f1]
  unfold rotData
  dsimp only
  rw [if_neg (f2 hc.2), hj]
  simp only [oneColumn, Except.map, if_pos vzero_zero, hax, hT, dir_smul m hm r hr n hnm q hq, arg_deg' k h1 h2, degrees_deg]

include hS hS' ho hn in
/-- C191: a half turn is named with 180 degrees, its axis in one of the two directions, and the point of the axis nearest to the origin. -/
theorem C191_space_half_turn (hW : IsRot3 W n Real.pi) (m : Fin 3 → Int) (hm : Prim m) (r : ℝ) (hr : 0 < r)
    (hnm : ∀ i, n i = r * (m i : ℝ)) (ha : About W (w.getD 0) o 0) (hre : RealColumn eig W 1) :
    ∃ O, (name3 eig W w = .ok (.rot 180 (.int (m 0) (m 1) (m 2)) O) ∨ name3 eig W w = .ok (.rot 180 (.int (-m 0) (-m 1) (-m 2)) O)) ∧ Denotes O o := by
  have hg := rot_gen W n _ hW
  rw [Real.cos_pi, Real.sin_pi] at hg
  obtain rfl := hg
  have e2 : (1 : ℝ) - -1 = 2 := by norm_num
  have hp := gen_placed eig n hn _ _ _ (by norm_num) (Or.inl (by norm_num)) (Or.inr (by norm_num)) w hS' o 0 ha
  obtain ⟨j, hj, hT⟩ := gen_at n hn _ _ _ _ _ hS rfl (by rw [tol_val]; norm_num)
  have e1 : (-1 : ℝ) + (1 - -1) = 1 := by norm_num
  have hax := gen_real n hn _ _ _ _ _ hS rfl (by norm_num) j hT (hre j (by rw [hT, e1]))
  rw [e1] at hj
  obtain ⟨f1, -⟩ := rot_far n hn (-1) 0 (by norm_num)
  have f2 : close (gen n (-1) 0 (1 - -1)).trace (-1) := by
    rw [gen_trace n hn]
    have : (3 : ℝ) * -1 + (1 - -1) = -1 := by norm_num
    rw [this]; exact close_self _
  refine ⟨originPart o, ?_, originPart_denotes o ho⟩
  rw [name3_proper eig _ w _ _ (by rw [gen_det n hn]; norm_num) hp]
  unfold proper3
  rw [if_neg f1]
  unfold rotData
  dsimp only
  rw [if_pos f2, hj]
  have ed : degrees Real.pi = 180 := by rw [← deg_180, degrees_deg]
  rcases hax with hax | hax
  · left
    simp only [oneColumn, Except.map, if_pos vzero_zero, hax, dir_self m hm r hr n hnm, ed]
  · right
    simp only [oneColumn, Except.map, if_pos vzero_zero, hax, dir_neg m hm r hr n hnm, ed]

include hS hS' ho ht hn in
/-- C191: a screw by 1 to 180 degrees is named with a number of degrees, its translation, and the point of the axis nearest to the origin; it is the
    right-handed rotation by this number about the direction of the translation. -/
theorem C191_space_screw (k : Int) (h1 : 1 ≤ k) (h2 : k ≤ 180) (hW : IsRot3 W n (deg k)) (ht0 : t ≠ 0) (ha : About W (w.getD 0) o t) :
    ∃ k' T O, name3 eig W w = .ok (.screw k' T O) ∧ Denotes (some T) t ∧ Denotes O o ∧ IsRot3 W ((1 / Real.sqrt (t ⬝ᵥ t)) • t) (deg k') := by
  have hnz : ¬ vzero t := fun hz => ht0 ((vzero_iff t ht).1 hz)
  have hcs : Real.cos (deg k) ^ 2 + Real.sin (deg k) ^ 2 = 1 := Real.cos_sq_add_sin_sq _
  have hc1 := one_sub_cos_deg k (by omega) h2 (by omega)
  have hW0 := hW
  obtain rfl := rot_gen W n _ hW
  have hp := gen_placed eig n hn _ _ _ hcs (Or.inl (by ring)) (Or.inr hc1) w hS' o t ha
  obtain ⟨f1, f2⟩ := rot_far n hn _ (Real.sin (deg k)) hc1
  have htn : t = (n ⬝ᵥ t) • n := fix_axis n hn _ _ _ (by intro e; rw [e] at hc1; norm_num at hc1) hcs t ha.fix (by ring)
  have hD : n ⬝ᵥ t ≠ 0 := by
    intro e
    rw [e, zero_smul] at htn
    exact ht0 htn
  have htt : t ⬝ᵥ t = (n ⬝ᵥ t) ^ 2 := by
    conv_lhs => rw [htn]
    rw [dotProduct_smul, smul_dotProduct, hn]
    simp [sq]
  have hunit : (1 / Real.sqrt (t ⬝ᵥ t)) • t = (SignType.sign (n ⬝ᵥ t) : ℝ) • n := by
    rw [htt, Real.sqrt_sq_eq_abs]
    conv_lhs => rw [htn]
    rw [smul_smul]
    congr 1
    have he : n ⬝ᵥ ((n ⬝ᵥ t) • n) = n ⬝ᵥ t := by rw [dotProduct_smul, hn]; simp
    rw [he]
    rcases lt_or_gt_of_ne hD with h | h
    · rw [sign_neg h, abs_of_neg h]
      field_simp
      simp
    · rw [sign_pos h, abs_of_pos h]
      field_simp
      simp
  rw [name3_proper eig _ w _ _ (by rw [gen_det n hn, hcs]; ring) hp]
  unfold proper3
  rw [if_neg f1]
  unfold rotData
  dsimp only
  by_cases hk : k = 180
  · have hcos : Real.cos (deg k) = -1 := by rw [hk, deg_180, Real.cos_pi]
    have hsin : Real.sin (deg k) = 0 := by rw [hk, deg_180, Real.sin_pi]
    have f3 : close (gen n (Real.cos (deg k)) (Real.sin (deg k)) (1 - Real.cos (deg k))).trace (-1) := by
      rw [gen_trace n hn, hcos]
      have : (3 : ℝ) * -1 + (1 - -1) = -1 := by norm_num
      rw [this]; exact close_self _
    obtain ⟨j, hj, -⟩ := gen_at n hn _ _ _ _ _ hS hsin (by rw [hcos, tol_val]; norm_num)
    have e1 : Real.cos (deg k) + (1 - Real.cos (deg k)) = 1 := by ring
    rw [e1] at hj
    have ed : degrees Real.pi = 180 := by rw [← deg_180, degrees_deg]
    refine ⟨180, toRationalVector t, originPart o, ?_, ⟨ht0, fun i => nice_val _ (ht i)⟩, originPart_denotes o ho, ?_⟩
    · rw [if_pos f3, hj]
      simp only [oneColumn, Except.map, if_neg hnz, ed]
    · rw [hunit]
      intro x
      rw [hW0 x, hcos, hsin, deg_180, Real.cos_pi, Real.sin_pi]
      rcases lt_or_gt_of_ne hD with h | h
      · rw [sign_neg h]
        simp
      · rw [sign_pos h]
        simp
  · have hc := cos_deg k h1 (by omega)
    have hs := sin_deg k h1 (by omega)
    have htol : tol < Real.sin (deg k) := by rw [tol_val]; norm_num at hs ⊢; linarith
    obtain ⟨j, hj, hT⟩ := gen_pos n hn _ _ _ _ _ hS htol (by have := hc.1; intro e; norm_num at this; linarith)
    obtain ⟨q, hq, hax⟩ := gen_axis n hn _ _ _ _ _ hS htol j hT
    have hsg : (SignType.sign ((q • n) ⬝ᵥ t) : ℝ) = (SignType.sign (n ⬝ᵥ t) : ℝ) := by
      rw [smul_dotProduct, smul_eq_mul, sign_mul, sign_pos hq, one_mul]
    rcases lt_or_gt_of_ne hD with h | h
    · refine ⟨-k, toRationalVector t, originPart o, ?_, ⟨ht0, fun i => nice_val _ (ht i)⟩, originPart_denotes o ho, ?_⟩
      · rw [if_neg (f2 hc.2), hj]
        have ed : degrees (deg k * ((-1 : SignType) : ℝ)) = -k := by
          rw [show deg k * ((-1 : SignType) : ℝ) = deg (-k) by rw [deg_neg]; simp, degrees_deg]
        simp only [oneColumn, Except.map, if_neg hnz, hax, hT, arg_deg' k h1 (by omega), hsg, sign_neg h, ed]
      · rw [hunit, sign_neg h]
        intro x
        rw [hW0 x, deg_neg, Real.cos_neg, Real.sin_neg]
        simp
        rw [← smul_neg, cross_anticomm]
    · refine ⟨k, toRationalVector t, originPart o, ?_, ⟨ht0, fun i => nice_val _ (ht i)⟩, originPart_denotes o ho, ?_⟩
      · rw [if_neg (f2 hc.2), hj]
        have ed : degrees (deg k * ((1 : SignType) : ℝ)) = k := by
          rw [show deg k * ((1 : SignType) : ℝ) = deg k by simp, degrees_deg]
        simp only [oneColumn, Except.map, if_neg hnz, hax, hT, arg_deg' k h1 (by omega), hsg, sign_pos h, ed]
      · rw [hunit, sign_pos h]
        simpa using hW0

include hS' ho in
/-- C191: the inversion is named with its centre. -/
theorem C191_space_inversion (hW : W = -1) (ha : About W (w.getD 0) o 0) : ∃ O, name3 eig W w = .ok (.inv O) ∧ Denotes O o := by
  have hm : mclose W (-1) := by rw [hW]; exact fun i j => close_self _
  obtain rfl := hW.trans neg_one_gen
  have hu : (![1, 0, 0] : Fin 3 → ℝ) ⬝ᵥ ![1, 0, 0] = 1 := by simp [dotProduct, Fin.sum_univ_three]
  have hp := gen_placed eig _ hu (-1) 0 0 (by norm_num) (Or.inr (by norm_num)) (Or.inr (by norm_num)) w hS' o 0 ha
  refine ⟨originPart o, ?_, originPart_denotes o ho⟩
  rw [name3_improper eig _ w _ _ (by rw [gen_det _ hu]; norm_num) hp]
  unfold improper3
  dsimp only
  rw [if_pos hm]

include hS hS' ho ht hn in
/-- C191: a reflection of space is named with the integer normal of its plane whose first nonzero entry is positive, and the point of the plane nearest
    to the origin; a glide reflection with its translation too. -/
theorem C191_space_reflection (hW : IsRefl3 W n) (m : Fin 3 → Int) (hm : Prim m) (hpos : Positive m) (r : ℝ) (hr : 0 < r)
    (hnm : ∀ i, n i = r * (m i : ℝ)) (ha : About W (w.getD 0) o t) (hre : RealColumn eig W (-1)) :
    ∃ O, Denotes O o ∧ (t = 0 → name3 eig W w = .ok (.refl (.int (m 0) (m 1) (m 2)) O)) ∧
      (t ≠ 0 → ∃ T, name3 eig W w = .ok (.glide T (.int (m 0) (m 1) (m 2)) O) ∧ Denotes (some T) t) := by
  obtain rfl := refl_gen W n hW
  have hp := gen_placed eig n hn 1 0 (-2) (by norm_num) (Or.inr (by norm_num)) (Or.inl rfl) w hS' o t ha
  obtain ⟨j, hj, hT⟩ := gen_at n hn _ _ _ _ _ hS rfl (by rw [tol_val]; norm_num)
  have e1 : (1 : ℝ) + -2 = -1 := by norm_num
  have hax := gen_real n hn _ _ _ _ _ hS rfl (by norm_num) j hT (hre j (by rw [hT, e1]))
  rw [e1] at hj
  have hor := orient_eq m hm hpos r hr n hnm hn _ hax
  have htr : (gen n 1 0 (-2)).trace = 1 := by rw [gen_trace n hn]; norm_num
  have f1 : ¬ mclose (gen n 1 0 (-2)) (-1) := by
    intro hcl
    have := mclose_trace _ (-1) fun i => by have := hcl i i; rwa [Matrix.neg_apply, Matrix.one_apply_eq] at this
    rw [htr] at this
    norm_num at this
  have f2 : close (gen n 1 0 (-2)).trace 1 := by rw [htr]; exact close_self 1
  refine ⟨originPart o, originPart_denotes o ho, ?_⟩
  rw [name3_improper eig _ w _ _ (by rw [gen_det _ hn]; norm_num) hp]
  unfold improper3
  dsimp only
  rw [if_neg f1, if_pos f2, hj]
  simp only [oneColumn, Except.bind, hor, Except.map, dir_self m hm r hr n hnm]
  constructor
  · intro h0
    rw [if_pos ((vzero_iff t ht).2 h0)]
  · intro h0
    rw [if_neg fun hz => h0 ((vzero_iff t ht).1 hz)]
    exact ⟨_, rfl, h0, fun i => nice_val _ (ht i)⟩

include hS hS' ho hn in
/-- C191: a rotoreflection by 1 to 179 degrees is named with this number, the axis about which its rotation is right-handed, and its fixed point. -/
theorem C191_space_rotoreflection (k : Int) (h1 : 1 ≤ k) (h2 : k ≤ 179) (hW : IsRotoRefl3 W n (deg k)) (m : Fin 3 → Int) (hm : Prim m) (r : ℝ) (hr : 0 < r)
    (hnm : ∀ i, n i = r * (m i : ℝ)) (ha : About W (w.getD 0) o 0) :
    ∃ O, name3 eig W w = .ok (.rotoRefl k (.int (m 0) (m 1) (m 2)) O) ∧ Denotes O o := by
  have hc := cos_deg k h1 h2
  have hs := sin_deg k h1 h2
  have hcs : Real.cos (deg k) ^ 2 + Real.sin (deg k) ^ 2 = 1 := Real.cos_sq_add_sin_sq _
  have htol : tol < Real.sin (deg k) := by rw [tol_val]; norm_num at hs ⊢; linarith
  obtain rfl := rotoRefl_gen W n _ hW
  have hp := gen_placed eig n hn _ _ _ hcs (Or.inr (by ring)) (Or.inr hc.1) w hS' o 0 ha
  obtain ⟨j, hj, hT⟩ := gen_pos n hn _ _ _ _ _ hS htol (by have := hc.2; intro e; norm_num at this; linarith)
  obtain ⟨q, hq, hax⟩ := gen_axis n hn _ _ _ _ _ hS htol j hT
  have htr : (gen n (Real.cos (deg k)) (Real.sin (deg k)) (-(1 + Real.cos (deg k)))).trace = -1 + 2 * Real.cos (deg k) := by
    rw [gen_trace n hn]; ring
  have f1 : ¬ mclose (gen n (Real.cos (deg k)) (Real.sin (deg k)) (-(1 + Real.cos (deg k)))) (-1) := by
    intro hcl
    have := mclose_trace _ (-1) fun i => by have := hcl i i; rwa [Matrix.neg_apply, Matrix.one_apply_eq] at this
    rw [htr, abs_le] at this
    have h3 := hc.2
    norm_num at this h3
    linarith [this.2]
  have f2 : ¬ close (gen n (Real.cos (deg k)) (Real.sin (deg k)) (-(1 + Real.cos (deg k)))).trace 1 := by
    intro hcl
    unfold close at hcl
    rw [tol_val, htr, abs_le] at hcl
    have h3 := hc.1
    norm_num at h3 hcl
    linarith [hcl.1]
  refine ⟨originPart o, ?_, originPart_denotes o ho⟩
  rw [name3_improper eig _ w _ _ (by rw [gen_det n hn, hcs]; ring) hp]
  unfold improper3
  dsimp only
  rw [if_neg f1, if_neg f2, hj]
  simp only [oneColumn, Except.map, hax, hT, dir_smul m hm r hr n hnm q hq, arg_deg' k h1 h2, degrees_deg]

end space

/-! ## Cases -/

/-- the decomposition of an upper triangular matrix. -/
noncomputable def eig0 (d : Nat) : Eig d := fun M => (cm M, 1)

theorem eig0_schur {d : Nat} (M : Matrix (Fin d) (Fin d) ℝ) (h : ∀ i j, j < i → M i j = 0) : IsSchur M (eig0 d M).1 (eig0 d M).2 where
  left := by simp [eig0]
  right := by simp [eig0]
  upper := fun i j hij => by simp [eig0, h i j hij]
  eq := by simp [eig0]

theorem nice_rat (p : Int) (q : Nat) (h : ((p : ℚ) / (q : ℚ)).den ≤ 99) : Nice ((p : ℝ) / (q : ℝ)) := Or.inl ⟨(p : ℚ) / (q : ℚ), h, by push_cast; rfl⟩

theorem nice_zero' : Nice 0 := Or.inl ⟨0, by decide, by simp⟩

/-- a glide reflection along the horizontal line at height 3/2. -/
example : ∃ O T, name2 (eig0 2) (refl2 (deg 0)) (some ![1 / 2, 3]) = .ok (mirror2 0 O T) ∧ Denotes O ![0, 3 / 2] ∧ Denotes T ![1 / 2, 0] := by
  have e : refl2 (deg 0) = !![1, 0; 0, -1] := by ext i j; fin_cases i <;> fin_cases j <;> simp [refl2, deg]
  refine C191_plane_reflection (eig0 2) _ _ _ ?_ ?_ 0 (by norm_num) (by norm_num) (eig0_schur _ ?_) ?_
  · intro i
    fin_cases i
    · exact nice_zero'
    · have := nice_rat 3 2 (by norm_num); push_cast at this; exact this
  · intro i
    fin_cases i
    · have := nice_rat 1 2 (by norm_num); push_cast at this; exact this
    · exact nice_zero'
  · rw [e]
    intro i j hij
    fin_cases i <;> fin_cases j <;> simp at hij ⊢
  · rw [e]
    refine ⟨fun x => ?_, ?_, fun k hk => ?_⟩
    · funext i
      simp only [Matrix.mulVec, dotProduct, Fin.sum_univ_two, Pi.add_apply, Pi.sub_apply, Option.getD_some]
      fin_cases i <;> simp
      ring
    · funext i
      fin_cases i <;> simp [Matrix.mulVec, dotProduct, Fin.sum_univ_two]
    · have := congrFun hk 1
      simp [Matrix.mulVec, dotProduct, Fin.sum_univ_two] at this ⊢
      linarith

/-- the rotation by 90 degrees about the vertical axis, its eigenvalues and eigenvectors. -/
def quarter : Matrix (Fin 3) (Fin 3) ℝ := !![0, -1, 0; 1, 0, 0; 0, 0, 1]

/-- see `quarter`. -/
noncomputable def quarterVec : Matrix (Fin 3) (Fin 3) ℂ :=
  let a : ℂ := ((1 / Real.sqrt 2 : ℝ) : ℂ)
  !![a, a, 0; -Complex.I * a, Complex.I * a, 0; 0, 0, 1]

theorem quarter_unitary : quarterVecᴴ * quarterVec = 1 := by
  have e : (((1 / Real.sqrt 2 : ℝ) : ℂ)) * (((1 / Real.sqrt 2 : ℝ) : ℂ)) = 1 / 2 := by
    have : (1 / Real.sqrt 2) * (1 / Real.sqrt 2) = 1 / 2 := by
      rw [div_mul_div_comm, Real.mul_self_sqrt (by norm_num)]; norm_num
    rw [← Complex.ofReal_mul, this]
    push_cast
    rfl
  have hs : ∀ x : ℝ, (starRingEnd ℂ) (x : ℂ) = (x : ℂ) := Complex.conj_ofReal
  unfold quarterVec
  generalize ha : (((1 / Real.sqrt 2 : ℝ) : ℂ)) = a at e
  have hc : (starRingEnd ℂ) a = a := by rw [← ha]; exact hs _
  ext i j
  fin_cases i <;> fin_cases j <;> simp [Matrix.mul_apply, Fin.sum_univ_three, hc] <;>
    first
    | linear_combination 2 * e - a * a * Complex.I_sq
    | linear_combination a * a * Complex.I_sq

theorem quarter_schur : IsSchur quarter (Matrix.diagonal ![Complex.I, -Complex.I, 1]) quarterVec ∧
    IsSchur (1 - quarter) (Matrix.diagonal ![1 - Complex.I, 1 + Complex.I, 0]) quarterVec := by
  have h1 := quarter_unitary
  have h2 : quarterVec * quarterVecᴴ = 1 := mul_eq_one_comm.1 h1
  have key : ∀ (M : Matrix (Fin 3) (Fin 3) ℝ) (D : Matrix (Fin 3) (Fin 3) ℂ), cm M * quarterVec = quarterVec * D → cm M = quarterVec * D * quarterVecᴴ := by
    intro M D e
    rw [← e, Matrix.mul_assoc, h2, Matrix.mul_one]
  refine ⟨⟨h1, h2, fun i j hij => Matrix.diagonal_apply_ne _ hij.ne', key _ _ ?_⟩, ⟨h1, h2, fun i j hij => Matrix.diagonal_apply_ne _ hij.ne', key _ _ ?_⟩⟩
  · ext i j
    have := Complex.I_sq
    fin_cases i <;> fin_cases j <;> simp [quarter, quarterVec, Matrix.mul_apply, Fin.sum_univ_three] <;> ring_nf <;> simp
  · ext i j
    have := Complex.I_sq
    fin_cases i <;> fin_cases j <;> simp [quarter, quarterVec, Matrix.mul_apply, Fin.sum_univ_three] <;> ring_nf <;> simp <;> ring

theorem quarter_rot : IsRot3 quarter ![0, 0, 1] (deg 90) := by
  have e : deg 90 = Real.pi / 2 := by unfold deg; push_cast; ring
  intro x
  rw [e, Real.cos_pi_div_two, Real.sin_pi_div_two]
  funext i
  fin_cases i <;> simp [quarter, Matrix.mulVec, dotProduct, Fin.sum_univ_three, cross_apply, Matrix.vecHead, Matrix.vecTail]

theorem prim_z : Prim ![0, 0, 1] := ⟨fun d h => by have := h 2; simpa using this, by simp⟩

open Classical in
/-- the quarter turn about the vertical axis through `(1/2, 1/2, 0)`. -/
example : ∃ eig : Eig 3, ∃ O, name3 eig quarter (some ![1, 0, 0]) = .ok (.rot 90 (.int 0 0 1) O) ∧ Denotes O ![1 / 2, 1 / 2, 0] := by
  let eig : Eig 3 := fun M => if M = quarter then (Matrix.diagonal ![Complex.I, -Complex.I, 1], quarterVec)
    else (Matrix.diagonal ![1 - Complex.I, 1 + Complex.I, 0], quarterVec)
  have hne : (1 - quarter) ≠ quarter := by
    intro h
    have := congrFun (congrFun h 0) 0
    simp [quarter] at this
  obtain ⟨s1, s2⟩ := quarter_schur
  refine ⟨eig, C191_space_rotation eig quarter (by simpa [eig] using s1) (by simpa [eig, hne] using s2) _ _ ?_ ![0, 0, 1] (by simp [dotProduct, Fin.sum_univ_three])
    90 (by norm_num) (by norm_num) quarter_rot ![0, 0, 1] prim_z 1 one_pos ?_ ?_⟩
  · intro i
    have := nice_rat 1 2 (by norm_num)
    push_cast at this
    fin_cases i
    · exact this
    · exact this
    · exact nice_zero'
  · intro i
    fin_cases i <;> simp
  · refine ⟨fun x => ?_, by simp, fun k hk => ?_⟩
    · funext i
      simp only [Matrix.mulVec, dotProduct, Fin.sum_univ_three, Pi.add_apply, Pi.sub_apply, Option.getD_some]
      fin_cases i <;> simp [quarter] <;> ring
    · have h0 := congrFun hk 0
      have h1 := congrFun hk 1
      simp [quarter, Matrix.mulVec, dotProduct, Fin.sum_univ_three] at h0 h1 ⊢
      linarith

/-- the reflection in the plane `z = 1/2`. -/
example : ∃ O, Denotes O ![0, 0, 1 / 2] ∧ name3 (eig0 3) (Matrix.diagonal ![1, 1, -1]) (some ![0, 0, 1]) = .ok (.refl (.int 0 0 1) O) := by
  have ho : ∀ i, Nice ((![0, 0, 1 / 2] : Fin 3 → ℝ) i) := by
    intro i
    fin_cases i
    · exact nice_zero'
    · exact nice_zero'
    · have := nice_rat 1 2 (by norm_num); push_cast at this; exact this
  have hW : IsRefl3 (Matrix.diagonal ![1, 1, -1]) ![0, 0, 1] := by
    intro x
    funext i
    fin_cases i <;> simp [Matrix.mulVec, dotProduct, Fin.sum_univ_three, Matrix.diagonal_apply] <;> ring
  have hm : ∀ i, (![0, 0, 1] : Fin 3 → ℝ) i = 1 * ((![0, 0, 1] : Fin 3 → Int) i : ℝ) := by
    intro i
    fin_cases i <;> simp
  have ha : About (Matrix.diagonal ![1, 1, -1]) ((some ![0, 0, 1] : Option (Fin 3 → ℝ)).getD 0) ![0, 0, 1 / 2] 0 := by
    refine ⟨fun x => ?_, by simp, fun k hk => ?_⟩
    · funext i
      simp only [Matrix.mulVec, dotProduct, Fin.sum_univ_three, Pi.add_apply, Pi.sub_apply, Option.getD_some, Matrix.diagonal_apply]
      fin_cases i <;> simp <;> ring
    · have h2 := congrFun hk 2
      simp [Matrix.mulVec, dotProduct, Fin.sum_univ_three, Matrix.diagonal_apply] at h2 ⊢
      linarith
  have hr : RealColumn (eig0 3) (Matrix.diagonal ![1, 1, -1]) (-1) := by
    intro j hj i
    simp [eig0, Matrix.one_apply]
    split <;> simp
  obtain ⟨O, h1, h2, -⟩ := C191_space_reflection (eig0 3) (Matrix.diagonal ![1, 1, -1]) (eig0_schur _ fun i j hij => Matrix.diagonal_apply_ne _ hij.ne')
    (eig0_schur _ fun i j hij => by rw [Matrix.sub_apply, Matrix.one_apply_ne hij.ne', Matrix.diagonal_apply_ne _ hij.ne', sub_zero])
    (some ![0, 0, 1]) ![0, 0, 1 / 2] 0 ho (fun _ => nice_zero') ![0, 0, 1] (by simp [dotProduct, Fin.sum_univ_three]) hW ![0, 0, 1] prim_z
    ⟨2, by simp, fun k hk => by fin_cases k <;> simp at hk ⊢⟩ 1 one_pos hm ha hr
  exact ⟨O, h1, h2 rfl⟩

end Verif.GroupNames
