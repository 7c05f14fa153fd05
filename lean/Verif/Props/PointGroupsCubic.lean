import Verif.Props.PointGroupsAxial
import Mathlib.Algebra.Group.Subgroup.Ker

/-! C134: the cubic point groups. -/

set_option linter.unusedSectionVars false

namespace Verif.PGrp.Cubic
open Verif.Hilbert (Err)
open Verif.PGrp.Axial
open Verif.PGrp.Planar (implements_congr)
open Matrix

/-! ## Explicit matrices -/

abbrev Z3 := Fin 3 → ℤ
abbrev MZ := Matrix (Fin 3) (Fin 3) ℤ

/-- an integer matrix as a real one. -/
def toR (m : MZ) : M3 := m.map fun z => (z : ℝ)

/-- an integer vector as a real one. -/
def toV (v : Z3) : V3 := fun i => (v i : ℝ)

theorem toR_mulVec (m : MZ) (v : Z3) : toR m *ᵥ toV v = toV (m *ᵥ v) := by
  ext i; simp [toR, toV, Matrix.mulVec, dotProduct]

theorem toR_mul (m k : MZ) : toR (m * k) = toR m * toR k := by
  ext i j; simp [toR, Matrix.mul_apply]

theorem toR_tr (m : MZ) : toR mᵀ = (toR m)ᵀ := rfl

theorem toR_one : toR 1 = 1 := by
  ext i j
  by_cases h : i = j
  · subst h; simp [toR]
  · simp [toR, Matrix.one_apply_ne h]

theorem toR_inj {m k : MZ} (h : toR m = toR k) : m = k := by
  ext i j
  have := congrFun (congrFun h i) j
  simpa [toR] using this

theorem toR_det (m : MZ) : (toR m).det = ((m.det : ℤ) : ℝ) := by
  rw [Matrix.det_fin_three, Matrix.det_fin_three]
  simp [toR]

theorem toV_inj {v w : Z3} (h : toV v = toV w) : v = w := by
  ext i
  have := congrFun h i
  simpa [toV] using this

/-- the matrices of `T`, in order. -/
def tz : List MZ :=
  [!![1, 0, 0; 0, 1, 0; 0, 0, 1],
   !![0, 0, 1; 1, 0, 0; 0, 1, 0], !![0, 0, -1; -1, 0, 0; 0, 1, 0], !![0, 0, 1; -1, 0, 0; 0, -1, 0], !![0, 0, -1; 1, 0, 0; 0, -1, 0],
   !![0, 1, 0; 0, 0, 1; 1, 0, 0], !![0, -1, 0; 0, 0, 1; -1, 0, 0], !![0, -1, 0; 0, 0, -1; 1, 0, 0], !![0, 1, 0; 0, 0, -1; -1, 0, 0],
   !![-1, 0, 0; 0, -1, 0; 0, 0, 1], !![-1, 0, 0; 0, 1, 0; 0, 0, -1], !![1, 0, 0; 0, -1, 0; 0, 0, -1]]

/-- the vertices of the tetrahedron. -/
def vz : List Z3 := [![1, 1, 1], ![1, -1, -1], ![-1, 1, -1], ![-1, -1, 1]]

theorem tetra_eq : tetra = vz.map toV := by
  have h : ∀ a b c : ℤ, toV ![a, b, c] = ![(a : ℝ), b, c] := by
    intro a b c; ext i; fin_cases i <;> rfl
  simp [tetra, vz, h]

theorem cos_120 : Real.cos (radians 120) = -1 / 2 := by
  have e : radians 120 = Real.pi - Real.pi / 3 := by unfold radians; ring
  rw [e, Real.cos_pi_sub, Real.cos_pi_div_three]; ring

theorem sin_120 : Real.sin (radians 120) = Real.sqrt 3 / 2 := by
  have e : radians 120 = Real.pi - Real.pi / 3 := by unfold radians; ring
  rw [e, Real.sin_pi_sub, Real.sin_pi_div_three]

theorem radians_neg (x : ℝ) : radians (-x) = -radians x := by unfold radians; ring

theorem normalise_of {v : V3} {r : ℝ} (hr : 0 < r) (h : v ⬝ᵥ v = r * r) : normalise v = some fun i => v i / r := by
  unfold normalise
  simp only
  rw [sum_sq, h, Real.sqrt_mul_self hr.le, if_neg hr.ne']

/-- a third of a turn around a diagonal. -/
theorem rot_diag (v : V3) (s : ℝ) (hs : s = 1 ∨ s = -1) :
    rotMat (radians (s * 120)) (fun i => v i / Real.sqrt 3) = (-1 / 2 : ℝ) • (1 : M3) + (s / 2) • crossEye v + (1 / 2 : ℝ) • vecMulVec v v := by
  have hq : Real.sqrt 3 * Real.sqrt 3 = 3 := Real.mul_self_sqrt (by norm_num)
  have hq0 : Real.sqrt 3 ≠ 0 := by positivity
  have hc : Real.cos (radians (s * 120)) = -1 / 2 := by
    rcases hs with rfl | rfl
    · rw [one_mul, cos_120]
    · rw [neg_one_mul, radians_neg, Real.cos_neg, cos_120]
  have hsn : Real.sin (radians (s * 120)) = s * (Real.sqrt 3 / 2) := by
    rcases hs with rfl | rfl
    · rw [one_mul, one_mul, sin_120]
    · rw [neg_one_mul, radians_neg, Real.sin_neg, sin_120]; ring
  have h1 : crossEye (fun i => v i / Real.sqrt 3) = (1 / Real.sqrt 3) • crossEye v := by
    rw [crossEye_eq, crossEye_eq]
    ext i j; fin_cases i <;> fin_cases j <;> simp <;> ring
  have h2 : vecMulVec (fun i => v i / Real.sqrt 3) (fun i => v i / Real.sqrt 3) = (1 / 3 : ℝ) • vecMulVec v v := by
    ext i j
    simp only [vecMulVec_apply, Matrix.smul_apply, smul_eq_mul]
    rw [div_mul_div_comm, hq]; ring
  unfold rotMat
  rw [hc, hsn, h1, h2, smul_smul, smul_smul]
  congr 1
  · congr 2
    field_simp
  · congr 1; norm_num

/-- half a turn around an axis of length one. -/
theorem rot_half (v : V3) : rotMat (radians 180) v = (-1 : ℝ) • (1 : M3) + (2 : ℝ) • vecMulVec v v := by
  have e : radians 180 = Real.pi := by unfold radians; ring
  unfold rotMat
  rw [e, Real.cos_pi, Real.sin_pi]
  norm_num

/-- the matrix of an entry of `tArgs`. -/
noncomputable def tMat (p : ℝ × V3) : M3 :=
  rotMat (radians p.1) (if p.1 = 180 then p.2 else fun i => p.2 i / Real.sqrt 3)

theorem tMats_eq : (1 : M3) :: tArgs.map tMat = tz.map toR := by
  have g1 : ∀ v, tMat (120, v) = (-1 / 2 : ℝ) • (1 : M3) + ((1 : ℝ) / 2) • crossEye v + (1 / 2 : ℝ) • vecMulVec v v := by
    intro v
    unfold tMat
    rw [if_neg (by norm_num), ← rot_diag v 1 (.inl rfl), one_mul]
  have g2 : ∀ v, tMat (-120, v) = (-1 / 2 : ℝ) • (1 : M3) + ((-1 : ℝ) / 2) • crossEye v + (1 / 2 : ℝ) • vecMulVec v v := by
    intro v
    unfold tMat
    rw [if_neg (by norm_num), ← rot_diag v (-1) (.inr rfl), neg_one_mul]
  have g3 : ∀ v, tMat (180, v) = (-1 : ℝ) • (1 : M3) + (2 : ℝ) • vecMulVec v v := by
    intro v
    unfold tMat
    rw [if_pos rfl, rot_half]
  simp only [tArgs, tz, List.map_cons, List.map_nil, g1, g2, g3, List.cons.injEq, and_true, crossEye_eq]
  refine ⟨?_, ?_, ?_, ?_, ?_, ?_, ?_, ?_, ?_, ?_, ?_, ?_⟩ <;>
    (ext i j; fin_cases i <;> fin_cases j <;> simp [toR, vecMulVec_apply] <;> norm_num)

theorem pre_T : Pre T (tz.map toR) := by
  rw [← tMats_eq]
  have h3 : (0 : ℝ) < Real.sqrt 3 := by positivity
  have hq : Real.sqrt 3 * Real.sqrt 3 = 3 := Real.mul_self_sqrt (by norm_num)
  have key : ∀ p ∈ tArgs, ∃ a, normalise p.2 = some a ∧ Unit3 a ∧ a = (if p.1 = 180 then p.2 else fun i => p.2 i / Real.sqrt 3) := by
    intro p hp
    have hcase : (p.1 ≠ 180 ∧ p.2 ⬝ᵥ p.2 = 3) ∨ (p.1 = 180 ∧ p.2 ⬝ᵥ p.2 = 1) := by
      simp only [tArgs, List.mem_cons, List.not_mem_nil, or_false] at hp
      rcases hp with rfl | rfl | rfl | rfl | rfl | rfl | rfl | rfl | rfl | rfl | rfl <;>
        first
          | (right; refine ⟨rfl, ?_⟩; simp [dotProduct, Fin.sum_univ_three]; done)
          | (left; refine ⟨by norm_num, ?_⟩; simp [dotProduct, Fin.sum_univ_three]; norm_num; done)
    rcases hcase with ⟨h1, h2⟩ | ⟨h1, h2⟩
    · refine ⟨_, normalise_of h3 (by rw [h2, hq]), ?_, by rw [if_neg h1]⟩
      have e : (fun i => p.2 i / Real.sqrt 3) = (Real.sqrt 3)⁻¹ • p.2 := by ext i; simp [div_eq_inv_mul]
      unfold Unit3
      rw [e, smul_dotProduct, dotProduct_smul, h2, smul_eq_mul, smul_eq_mul]
      field_simp
      rw [pow_two, hq]
    · refine ⟨_, normalise_of (r := 1) one_pos (by rw [h2, one_mul]), ?_, ?_⟩
      · unfold Unit3; simpa using h2
      · rw [if_pos h1]; simp
  refine pre_idAnd _ _ tMat (fun p hp => ?_) (fun p hp => ?_)
  · obtain ⟨a, k1, k2, k3⟩ := key p hp
    rw [rotation_ok k1 k2, k3]; rfl
  · obtain ⟨a, k1, k2, k3⟩ := key p hp
    unfold tMat
    rw [← k3]; exact rotMat_orth k2 _

/-! ## Symmetries of the tetrahedron -/

theorem isGrp_tetra : IsGrp TetraSym := by
  refine ⟨fun W h => h.1, ⟨by simp [Orth], fun v hv => by simpa using hv⟩, ?_, ?_⟩
  · rintro W V ⟨h1, h2⟩ ⟨h3, h4⟩
    exact ⟨ortho_mul h1 h3, fun v hv => by rw [← Matrix.mulVec_mulVec]; exact h2 _ (h4 v hv)⟩
  · rintro W ⟨h1, h2⟩
    have h1' : W * Wᵀ = 1 := mul_eq_one_comm.1 h1
    refine ⟨by unfold Orth; rw [Matrix.transpose_transpose]; exact h1', fun v hv => ?_⟩
    let f : {v // v ∈ tetra} → {v // v ∈ tetra} := fun v => ⟨W *ᵥ v.1, h2 v.1 v.2⟩
    have hfin : Finite {v // v ∈ tetra} := List.finite_toSet tetra
    have hinj : Function.Injective f := by
      intro u w h
      have h3 : W *ᵥ u.1 = W *ᵥ w.1 := congrArg Subtype.val h
      have h4 := congrArg (fun x => Wᵀ *ᵥ x) h3
      have h1' : Wᵀ * W = 1 := h1
      simp only [Matrix.mulVec_mulVec, h1', Matrix.one_mulVec] at h4
      exact Subtype.ext h4
    obtain ⟨u, hu⟩ := Finite.surjective_of_injective hinj ⟨v, hv⟩
    have : W *ᵥ u.1 = v := congrArg Subtype.val hu
    rw [← this, Matrix.mulVec_mulVec, h1, Matrix.one_mulVec]
    exact u.2

/-- rotations of the tetrahedron. -/
def TetraRot (W : M3) : Prop := TetraSym W ∧ W.det = 1

theorem isGrp_tetraRot : IsGrp TetraRot :=
  ⟨fun W h => h.1.1, ⟨isGrp_tetra.one, Matrix.det_one⟩, fun W V h h' => ⟨isGrp_tetra.mul _ _ h.1 h'.1, by
    rw [Matrix.det_mul, h.2, h'.2, one_mul]⟩, fun W h => ⟨isGrp_tetra.tr _ h.1, by rw [Matrix.det_transpose, h.2]⟩⟩

/-- twice the matrix which takes the first three vertices to given ones. -/
def fromImages (a b c : Z3) : MZ := of fun i j => ![a i + b i, a i + c i, -(b i + c i)] j

theorem images_spec (W : M3) (a b c : Z3) (ha : W *ᵥ toV ![1, 1, 1] = toV a) (hb : W *ᵥ toV ![1, -1, -1] = toV b)
    (hc : W *ᵥ toV ![-1, 1, -1] = toV c) : (2 : ℝ) • W = toR (fromImages a b c) := by
  ext i j
  have h1 := congrFun ha i
  have h2 := congrFun hb i
  have h3 := congrFun hc i
  simp [Matrix.mulVec, dotProduct, Fin.sum_univ_three, toV] at h1 h2 h3
  fin_cases j <;> simp [toR, fromImages] <;> linarith

theorem finite_check : ∀ a ∈ vz, ∀ b ∈ vz, ∀ c ∈ vz, (fromImages a b c)ᵀ * fromImages a b c = !![4, 0, 0; 0, 4, 0; 0, 0, 4] →
    (fromImages a b c 0 0 * fromImages a b c 1 1 * fromImages a b c 2 2 - fromImages a b c 0 0 * fromImages a b c 1 2 * fromImages a b c 2 1
      - fromImages a b c 0 1 * fromImages a b c 1 0 * fromImages a b c 2 2 + fromImages a b c 0 1 * fromImages a b c 1 2 * fromImages a b c 2 0
      + fromImages a b c 0 2 * fromImages a b c 1 0 * fromImages a b c 2 1
      - fromImages a b c 0 2 * fromImages a b c 1 1 * fromImages a b c 2 0) = 8 →
    fromImages a b c ∈ tz.map fun m => m + m := by
  decide +kernel

theorem finite_check_back : ∀ m ∈ tz, mᵀ * m = 1 ∧ (∀ v ∈ vz, m *ᵥ v ∈ vz) ∧
    m 0 0 * m 1 1 * m 2 2 - m 0 0 * m 1 2 * m 2 1 - m 0 1 * m 1 0 * m 2 2 + m 0 1 * m 1 2 * m 2 0 + m 0 2 * m 1 0 * m 2 1
      - m 0 2 * m 1 1 * m 2 0 = 1 := by
  decide +kernel

theorem tz_nodup : tz.Nodup := by decide +kernel

theorem enum_T : Enum (tz.map toR) TetraRot := by
  refine ⟨tz_nodup.map fun _ _ => toR_inj, fun W => ?_⟩
  rw [List.mem_map]
  constructor
  · rintro ⟨m, hm, rfl⟩
    obtain ⟨h1, h2, h3⟩ := finite_check_back m hm
    refine ⟨⟨?_, ?_⟩, ?_⟩
    · unfold Orth; rw [← toR_tr, ← toR_mul, h1, toR_one]
    · rw [tetra_eq]
      intro v hv
      obtain ⟨u, hu, rfl⟩ := List.mem_map.1 hv
      rw [toR_mulVec]
      exact List.mem_map.2 ⟨_, h2 u hu, rfl⟩
    · rw [toR_det, Matrix.det_fin_three, h3, Int.cast_one]
  · rintro ⟨⟨ho, hv⟩, hd⟩
    rw [tetra_eq] at hv
    have get : ∀ u ∈ vz, ∃ a ∈ vz, W *ᵥ toV u = toV a := by
      intro u hu
      obtain ⟨a, ha, e⟩ := List.mem_map.1 (hv (toV u) (List.mem_map.2 ⟨u, hu, rfl⟩))
      exact ⟨a, ha, e.symm⟩
    obtain ⟨a, ha, ea⟩ := get ![1, 1, 1] (by decide)
    obtain ⟨b, hb, eb⟩ := get ![1, -1, -1] (by decide)
    obtain ⟨c, hc, ec⟩ := get ![-1, 1, -1] (by decide)
    have hW := images_spec W a b c ea eb ec
    have h1 : (fromImages a b c)ᵀ * fromImages a b c = !![4, 0, 0; 0, 4, 0; 0, 0, 4] := by
      apply toR_inj
      rw [toR_mul, toR_tr, ← hW, Matrix.transpose_smul, Matrix.smul_mul, Matrix.mul_smul, (ho : Wᵀ * W = 1), smul_smul]
      ext i j; fin_cases i <;> fin_cases j <;> simp [toR] <;> norm_num
    have h2 : (fromImages a b c).det = 8 := by
      have : ((fromImages a b c).det : ℝ) = 8 := by
        rw [← toR_det, ← hW, Matrix.det_smul, hd]; norm_num
      exact_mod_cast this
    rw [Matrix.det_fin_three] at h2
    obtain ⟨m, hm, e⟩ := List.mem_map.1 (finite_check a ha b hb c hc h1 h2)
    refine ⟨m, hm, ?_⟩
    have : (2 : ℝ) • W = (2 : ℝ) • toR m := by
      rw [hW, ← e]; ext i j; simp [toR, two_mul]
    exact (smul_right_injective _ (two_ne_zero) this).symm

theorem orth_det (W : M3) (h : Orth W) : W.det = 1 ∨ W.det = -1 := by
  have := congrArg Matrix.det h
  rw [Matrix.det_mul, Matrix.det_transpose, Matrix.det_one] at this
  exact mul_self_eq_one_iff.1 this

theorem conj_det (M W : M3) (hM : Mᵀ * M = 1) (h : W.det = 1) : (Mᵀ * W * M).det = 1 := by
  have : Mᵀ.det * M.det = 1 := by rw [← Matrix.det_mul, hM, Matrix.det_one]
  rw [Matrix.det_mul, Matrix.det_mul, h, mul_one, this]

/-! ## C134 -/

/-- `T()` consists of the 12 rotations which take the vertices of the tetrahedron to vertices. -/
theorem C134_T : Implements T (fun W => TetraSym W ∧ W.det = 1) 12 :=
  implements_of _ _ _ _ pre_T enum_T isGrp_tetraRot rfl

theorem mirror110 : ∃ a, normalise ![1, 1, 0] = some a ∧ Unit3 a ∧ reflMat a = toR !![0, -1, 0; -1, 0, 0; 0, 0, 1] := by
  have hq : Real.sqrt 2 * Real.sqrt 2 = 2 := Real.mul_self_sqrt (by norm_num)
  have hq0 : (0 : ℝ) < Real.sqrt 2 := by positivity
  refine ⟨_, normalise_of hq0 (by rw [hq]; simp [dotProduct, Fin.sum_univ_three]; norm_num), ?_, ?_⟩
  · simp only [Unit3, dotProduct, Fin.sum_univ_three]
    simp
    field_simp
    linarith
  · unfold reflMat
    have e : vecMulVec (fun i => (![1, 1, 0] : V3) i / Real.sqrt 2) (fun i => (![1, 1, 0] : V3) i / Real.sqrt 2) =
        (1 / 2 : ℝ) • vecMulVec ![1, 1, 0] ![1, 1, 0] := by
      ext i j
      simp only [vecMulVec_apply, Matrix.smul_apply, smul_eq_mul]
      rw [div_mul_div_comm, hq]; ring
    rw [e]
    ext i j; fin_cases i <;> fin_cases j <;> simp [toR] <;> norm_num

theorem tetra_of_int (m : MZ) (h1 : mᵀ * m = 1) (h2 : ∀ v ∈ vz, m *ᵥ v ∈ vz) : TetraSym (toR m) := by
  refine ⟨by unfold Orth; rw [← toR_tr, ← toR_mul, h1, toR_one], ?_⟩
  rw [tetra_eq]
  intro v hv
  obtain ⟨u, hu, rfl⟩ := List.mem_map.1 hv
  rw [toR_mulVec]
  exact List.mem_map.2 ⟨_, h2 u hu, rfl⟩

theorem td_aux : ∃ Ws, Pre Td Ws ∧ Enum Ws TetraSym ∧ Ws.length = 24 := by
  obtain ⟨a, h1, h2, h3⟩ := mirror110
  have hsym : TetraSym (reflMat a) := by rw [h3]; exact tetra_of_int _ (by decide +kernel) (by decide +kernel)
  have hdet := reflMat_det h2
  have hsq : TetraRot (reflMat a * reflMat a) := by rw [reflMat_sq h2]; exact isGrp_tetraRot.one
  refine ⟨_, pre_prod _ _ _ _ (pre_refl h1 h2) pre_T, ?_, by rw [length_coset]; rfl⟩
  have hE := enum_coset isGrp_tetraRot (reflMat a) (reflMat_orth h2) (fun h => by
    have := h.2; rw [hdet] at this; norm_num at this) _ enum_T
  refine ⟨hE.1, fun W => ?_⟩
  rw [hE.2, coset_iff _ (reflMat_orth h2)]
  constructor
  · rintro (h | h)
    · exact h.1
    · have := isGrp_tetra.mul _ _ hsym h.1
      rwa [← Matrix.mul_assoc, reflMat_tr, reflMat_sq h2, Matrix.one_mul] at this
  · intro h
    rcases orth_det W h.1 with hd | hd
    · exact .inl ⟨h, hd⟩
    · refine .inr ⟨isGrp_tetra.mul _ _ (isGrp_tetra.tr _ hsym) h, ?_⟩
      rw [Matrix.det_mul, Matrix.det_transpose, hdet, hd]; norm_num

/-- `Td()` consists of the 24 orthogonal maps which take the vertices of the tetrahedron to vertices. -/
theorem C134_Td : Implements Td TetraSym 24 := by
  obtain ⟨Ws, h1, h2, h3⟩ := td_aux
  exact implements_of _ _ _ _ h1 h2 isGrp_tetra h3

theorem pre_inv : Pre inversionGroup [1, (-1 : M3)] := pre_pair _ (by simp)

theorem det_neg_one : (-1 : M3).det = -1 := by rw [det_neg3, Matrix.det_one]

/-- `Th()` consists of the rotations of `T()` and of these followed by the inversion: 24 elements. -/
theorem C134_Th : Implements Th (fun W => (TetraSym W ∧ W.det = 1) ∨ (TetraSym (-W) ∧ W.det = -1)) 24 := by
  refine implements_congr (fun W => ?_) (implements_mirror _ _ _ _ _ _ pre_inv pre_T enum_T isGrp_tetraRot rfl (by simp)
    (fun h => by have := h.2; rw [det_neg_one] at this; norm_num at this) (by simpa using isGrp_tetraRot.one)
    (fun W h => by simpa using h))
  rw [coset_iff _ (by simp)]
  have : (-1 : M3)ᵀ * W = -W := by simp
  rw [this]
  unfold TetraRot
  rw [det_neg3]
  constructor
  · rintro (h | ⟨h, h'⟩)
    · exact .inl h
    · exact .inr ⟨h, by linarith⟩
  · rintro (h | ⟨h, h'⟩)
    · exact .inl h
    · exact .inr ⟨h, by linarith⟩

/-! ### The cube -/

theorem mem_tetra_iff (v : V3) : v ∈ tetra ↔ IsCubeVertex v ∧ v 0 * v 1 * v 2 = 1 := by
  constructor
  · intro h
    simp only [tetra, List.mem_cons, List.not_mem_nil, or_false] at h
    rcases h with rfl | rfl | rfl | rfl <;> (refine ⟨fun i => ?_, ?_⟩ <;> [(fin_cases i <;> simp); simp])
  · rintro ⟨h, hp⟩
    have e : v = ![v 0, v 1, v 2] := by ext i; fin_cases i <;> rfl
    rw [e]
    rcases h 0 with h0 | h0 <;> rcases h 1 with h1 | h1 <;> rcases h 2 with h2 | h2 <;> rw [h0, h1, h2] at hp ⊢ <;>
      first | (exfalso; norm_num at hp; done) | simp [tetra]

theorem vertex_cases (v : V3) (h : IsCubeVertex v) : v ∈ tetra ∨ -v ∈ tetra := by
  rw [mem_tetra_iff, mem_tetra_iff]
  have hv : IsCubeVertex (-v) := fun i => by
    rcases h i with h | h <;> simp [h]
  have : v 0 * v 1 * v 2 = 1 ∨ (-v) 0 * (-v) 1 * (-v) 2 = 1 := by
    rcases h 0 with h0 | h0 <;> rcases h 1 with h1 | h1 <;> rcases h 2 with h2 | h2 <;> simp [h0, h1, h2]
  rcases this with h' | h'
  · exact .inl ⟨h, h'⟩
  · exact .inr ⟨hv, h'⟩

theorem tetra_vertex (v : V3) (h : v ∈ tetra) : IsCubeVertex v := ((mem_tetra_iff v).1 h).1

theorem neg_vertex {v : V3} (h : IsCubeVertex v) : IsCubeVertex (-v) := fun i => by
  rcases h i with h | h <;> simp [h]

/-- vertices of the cube at the distance of two vertices of the tetrahedron belong to the same tetrahedron. -/
theorem same_tetra (v w : V3) (hv : IsCubeVertex v) (hw : IsCubeVertex w) (hd : v ⬝ᵥ w = -1) (h : v ∈ tetra) : w ∈ tetra := by
  rw [mem_tetra_iff] at h ⊢
  refine ⟨hw, ?_⟩
  have h' := h.2
  simp only [dotProduct, Fin.sum_univ_three] at hd
  rcases hv 0 with a0 | a0 <;> rcases hv 1 with a1 | a1 <;> rcases hv 2 with a2 | a2 <;> rw [a0, a1, a2] at hd h' <;>
    rcases hw 0 with b0 | b0 <;> rcases hw 1 with b1 | b1 <;> rcases hw 2 with b2 | b2 <;> rw [b0, b1, b2] at hd ⊢ <;>
      first | (norm_num; done) | (exfalso; norm_num at hd; done) | (exfalso; norm_num at h'; done)

/-- the quarter turn around the z-axis. -/
def quarter : MZ := !![0, -1, 0; 1, 0, 0; 0, 0, 1]

theorem rotation90 : ∃ a, normalise ![0, 0, 1] = some a ∧ Unit3 a ∧ rotMat (radians 90) a = toR quarter := by
  refine ⟨_, normalise_of (r := 1) one_pos (by simp [dotProduct, Fin.sum_univ_three]), ?_, ?_⟩
  · simp [Unit3, dotProduct, Fin.sum_univ_three]
  · have e : radians 90 = Real.pi / 2 := by unfold radians; ring
    unfold rotMat
    rw [e, Real.cos_pi_div_two, Real.sin_pi_div_two, crossEye_eq]
    ext i j; fin_cases i <;> fin_cases j <;> simp [toR, quarter, vecMulVec_apply]

theorem quarter_orth : (toR quarter)ᵀ * toR quarter = 1 := by
  rw [← toR_tr, ← toR_mul, ← toR_one]; congr 1; decide +kernel

theorem quarter_swap (v : V3) (h : v ∈ tetra) : -(toR quarter *ᵥ v) ∈ tetra := by
  rw [tetra_eq] at h ⊢
  obtain ⟨u, hu, rfl⟩ := List.mem_map.1 h
  rw [toR_mulVec]
  have : ∀ u ∈ vz, -(quarter *ᵥ u) ∈ vz := by decide +kernel
  refine List.mem_map.2 ⟨_, this u hu, ?_⟩
  ext i; simp [toV]

theorem quarter_swap' (v : V3) (h : v ∈ tetra) : (toR quarter)ᵀ *ᵥ (-v) ∈ tetra := by
  rw [tetra_eq] at h ⊢
  obtain ⟨u, hu, rfl⟩ := List.mem_map.1 h
  have e : -toV u = toV (-u) := by ext i; simp [toV]
  rw [e, ← toR_tr, toR_mulVec]
  have : ∀ u ∈ vz, quarterᵀ *ᵥ (-u) ∈ vz := by decide +kernel
  exact List.mem_map.2 ⟨_, this u hu, rfl⟩

theorem quarter_det : (toR quarter).det = 1 := by
  rw [toR_det, Matrix.det_fin_three]
  simp [quarter]

theorem quarter_conj (W : M3) (h : TetraRot W) : TetraRot ((toR quarter)ᵀ * W * toR quarter) := by
  refine ⟨⟨ortho_mul (ortho_mul ?_ h.1.1) quarter_orth, fun v hv => ?_⟩, conj_det _ _ quarter_orth h.2⟩
  · rw [Matrix.transpose_transpose]; exact mul_eq_one_comm.1 quarter_orth
  · rw [← Matrix.mulVec_mulVec, ← Matrix.mulVec_mulVec]
    have h1 := h.1.2 _ (quarter_swap v hv)
    have h2 := quarter_swap' _ h1
    simpa only [Matrix.mulVec_neg, neg_neg] using h2

theorem quarter_sq : TetraRot (toR quarter * toR quarter) := by
  rw [← toR_mul]
  have hm : quarter * quarter ∈ tz := by decide +kernel
  exact (enum_T.2 _).1 (List.mem_map.2 ⟨_, hm, rfl⟩)

theorem cube_of_tetra (W : M3) (h : TetraSym W) : CubeSym W := by
  refine ⟨h.1, fun v hv => ?_⟩
  rcases vertex_cases v hv with h1 | h1
  · exact tetra_vertex _ (h.2 v h1)
  · have := neg_vertex (tetra_vertex _ (h.2 _ h1))
    rwa [Matrix.mulVec_neg, neg_neg] at this

theorem cube_mul (W V : M3) (h : CubeSym W) (h' : CubeSym V) : CubeSym (W * V) :=
  ⟨ortho_mul h.1 h'.1, fun v hv => by rw [← Matrix.mulVec_mulVec]; exact h.2 _ (h'.2 v hv)⟩

theorem cube_quarter : CubeSym (toR quarter) := by
  refine ⟨quarter_orth, fun v hv => ?_⟩
  rcases vertex_cases v hv with h1 | h1
  · have := neg_vertex (tetra_vertex _ (quarter_swap v h1))
    rwa [neg_neg] at this
  · have := tetra_vertex _ (quarter_swap _ h1)
    rwa [Matrix.mulVec_neg, neg_neg] at this

theorem orth_dot (W : M3) (h : Orth W) (v w : V3) : (W *ᵥ v) ⬝ᵥ (W *ᵥ w) = v ⬝ᵥ w := by
  rw [Matrix.dotProduct_mulVec, Matrix.vecMul_mulVec, h, Matrix.vecMul_one]

theorem tetra_dot (v w : V3) (hv : v ∈ tetra) (hw : w ∈ tetra) (h : v ≠ w) : v ⬝ᵥ w = -1 := by
  simp only [tetra, List.mem_cons, List.not_mem_nil, or_false] at hv hw
  rcases hv with rfl | rfl | rfl | rfl <;> rcases hw with rfl | rfl | rfl | rfl <;>
    first | exact absurd rfl h | simp [dotProduct, Fin.sum_univ_three]

/-- rotations of the cube. -/
def CubeRot (W : M3) : Prop := CubeSym W ∧ W.det = 1

theorem coset_cube (W : M3) : WithCoset (toR quarter) TetraRot W ↔ CubeRot W := by
  rw [coset_iff _ quarter_orth]
  constructor
  · rintro (h | h)
    · exact ⟨cube_of_tetra W h.1, h.2⟩
    · have h1 : W = toR quarter * ((toR quarter)ᵀ * W) := by
        rw [← Matrix.mul_assoc, mul_eq_one_comm.1 quarter_orth, Matrix.one_mul]
      rw [h1]
      exact ⟨cube_mul _ _ cube_quarter (cube_of_tetra _ h.1), by rw [Matrix.det_mul, quarter_det, h.2, one_mul]⟩
  · rintro ⟨⟨ho, hv⟩, hd⟩
    have h1 : (![1, 1, 1] : V3) ∈ tetra := by simp [tetra]
    rcases vertex_cases _ (hv _ (tetra_vertex _ h1)) with h2 | h2
    · left
      refine ⟨⟨ho, fun v hm => ?_⟩, hd⟩
      by_cases e : ![1, 1, 1] = v
      · rw [← e]; exact h2
      · exact same_tetra _ _ (hv _ (tetra_vertex _ h1)) (hv _ (tetra_vertex _ hm))
          (by rw [orth_dot W ho]; exact tetra_dot _ _ h1 hm e) h2
    · right
      refine ⟨⟨ortho_mul (by rw [Matrix.transpose_transpose]; exact mul_eq_one_comm.1 quarter_orth) ho, fun v hm => ?_⟩, by
        rw [Matrix.det_mul, Matrix.det_transpose, quarter_det, hd, one_mul]⟩
      have h3 : -(W *ᵥ v) ∈ tetra := by
        by_cases e : ![1, 1, 1] = v
        · rw [← e]; exact h2
        · refine same_tetra _ _ (neg_vertex (hv _ (tetra_vertex _ h1))) (neg_vertex (hv _ (tetra_vertex _ hm))) ?_ h2
          rw [neg_dotProduct, dotProduct_neg, neg_neg, orth_dot W ho]
          exact tetra_dot _ _ h1 hm e
      have := quarter_swap' _ h3
      rwa [neg_neg, Matrix.mulVec_mulVec] at this

theorem o_aux : ∃ Ws, Pre O Ws ∧ Enum Ws CubeRot ∧ Ws.length = 24 ∧ IsGrp CubeRot := by
  obtain ⟨a, h1, h2, h3⟩ := rotation90
  have hno : ¬TetraRot (toR quarter) := by
    intro h
    have h4 := h.1.2 ![1, 1, 1] (by simp [tetra])
    rw [mem_tetra_iff] at h4
    have := h4.2
    simp [toR, quarter, Matrix.mulVec, dotProduct, Fin.sum_univ_three] at this
    norm_num at this
  have hpre : Pre O ([1, toR quarter].flatMap fun W => (tz.map toR).map fun V => W * V) := by
    refine pre_prod _ _ _ _ ?_ pre_T
    rw [rotation_ok h1 h2, h3, ← mkPG_none _ quarter_orth]
    exact pre_pair _ quarter_orth
  have hE := enum_coset isGrp_tetraRot (toR quarter) quarter_orth hno _ enum_T
  have e : WithCoset (toR quarter) TetraRot = CubeRot := funext fun W => propext (coset_cube W)
  refine ⟨_, hpre, e ▸ hE, by rw [length_coset]; rfl, e ▸ isGrp_coset isGrp_tetraRot _ quarter_orth quarter_sq quarter_conj⟩

/-- `O()` consists of the 24 rotations which take the vertices of the cube to vertices. -/
theorem C134_O : Implements O (fun W => CubeSym W ∧ W.det = 1) 24 := by
  obtain ⟨Ws, h1, h2, h3, h4⟩ := o_aux
  exact implements_of _ _ _ _ h1 h2 h4 h3

/-- `Oh()` consists of the 48 orthogonal maps which take the vertices of the cube to vertices. -/
theorem C134_Oh : Implements Oh CubeSym 48 := by
  obtain ⟨Ws, h1, h2, h3, h4⟩ := o_aux
  refine implements_congr (fun W => ?_) (implements_mirror _ _ _ _ _ _ pre_inv h1 h2 h4 h3 (by simp)
    (fun h => by have := h.2; rw [det_neg_one] at this; norm_num at this) (by simpa using h4.one)
    (fun W h => by simpa using h))
  have hneg : ∀ W, CubeSym W → CubeSym (-W) := fun W h =>
    ⟨by have := h.1; unfold Orth at this ⊢; simpa using this, fun v hv => by rw [Matrix.neg_mulVec]; exact neg_vertex (h.2 v hv)⟩
  rw [coset_iff _ (by simp)]
  have : (-1 : M3)ᵀ * W = -W := by simp
  rw [this]
  constructor
  · rintro (h | h)
    · exact h.1
    · have := hneg _ h.1
      rwa [neg_neg] at this
  · intro h
    rcases orth_det W h.1 with hd | hd
    · exact .inl ⟨h, hd⟩
    · exact .inr ⟨hneg _ h, by rw [det_neg3, hd, neg_neg]⟩

/-! ### Diamond -/

/-- `e` acts as `x ↦ A.1 x + A.2`. -/
def Aff (e : PGElem ℝ 3) (A : M3 × V3) : Prop := Good e ∧ ∀ x, e.act x = some (A.1 *ᵥ x + A.2)

theorem aff_prod (a b : PGElem ℝ 3) (A B : M3 × V3) (ha : Aff a A) (hb : Aff b B) :
    ∃ c, elemProd a b = .ok c ∧ Aff c (A.1 * B.1, A.1 *ᵥ B.2 + A.2) := by
  obtain ⟨c, h1, h2, h3⟩ := C42_elements a b ha.1 hb.1
  refine ⟨c, h1, h2, fun x => ?_⟩
  have := h3 x
  rw [hb.2, Option.bind_some, ha.2, Matrix.mulVec_add, Matrix.mulVec_mulVec, add_assoc] at this
  exact this

theorem aff_lin (e : PGElem ℝ 3) (W : M3) : Lin e W ↔ Aff e (W, 0) := by
  unfold Lin Aff
  simp

/-- a quarter of the diagonal. -/
noncomputable def qv : V3 := ![1 / 4, 1 / 4, 1 / 4]

theorem inv_shifted : ∃ p, invShifted = .ok ⟨[.id, .sym p], none⟩ ∧ Aff (.sym p) (-1, qv) := by
  have h1 : inversionGroup = .ok ⟨[.id, .sym ⟨block (-1 : M3) 0⟩], none⟩ := by
    unfold inversionGroup inversion
    rw [mkPG_none _ (by simp)]
    rfl
  have hqv : qv = ![1 / 8, 1 / 8, 1 / 8] + ![1 / 8, 1 / 8, 1 / 8] := by
    ext i; fin_cases i <;> simp [qv] <;> norm_num
  unfold invShifted
  rw [h1]
  generalize (![1 / 8, 1 / 8, 1 / 8] : V3) = o at hqv ⊢
  obtain ⟨q, h2, h3, h4, h5, h6⟩ := C42_change_origin (⟨block (-1 : M3) 0⟩ : PGSym ℝ 3) ⟨_, _, mkPG_none _ (by simp)⟩ o
  refine ⟨q, by simp [PG.changeOrigin, collect, elemChangeOrigin, h2], h3, fun x => ?_⟩
  have e : x = o + (x - o) := by abel
  have := h6 (x - o)
  rw [← e, block_matrix, affineMap_eq] at this
  simp only [PGElem.act, this, Option.some.injEq]
  rw [Matrix.neg_mulVec, Matrix.one_mulVec, Matrix.neg_mulVec, Matrix.one_mulVec, hqv]
  abel

/-- the affine maps of `Fd3m`. -/
def Fd (A : M3 × V3) : Prop := (TetraSym A.1 ∧ A.2 = 0) ∨ (TetraSym (-A.1) ∧ A.2 = qv)

theorem neg_not_tetra (W : M3) (h : TetraSym W) (h' : TetraSym (-W)) : False := by
  have h1 : (![1, 1, 1] : V3) ∈ tetra := by simp [tetra]
  have h2 := ((mem_tetra_iff _).1 (h.2 _ h1)).2
  have h3 := ((mem_tetra_iff _).1 (h'.2 _ h1)).2
  rw [Matrix.neg_mulVec] at h3
  simp only [Pi.neg_apply] at h3
  linarith

theorem fd_aux : ∃ es As, Fd3m = .ok ⟨.id :: es, some fccCell⟩ ∧ List.Forall₂ Aff (.id :: es) As ∧ As.Nodup ∧ As.length = 48 ∧
    ∀ A, A ∈ As ↔ Fd A := by
  obtain ⟨p, h1, h2⟩ := inv_shifted
  obtain ⟨Ws, ⟨es, h3, h4⟩, h5, h6⟩ := td_aux
  have hb : List.Forall₂ Aff (.id :: es) (Ws.map fun W => (W, 0)) := by
    rw [List.forall₂_map_right_iff]
    exact h4.imp fun a b h => (aff_lin a b).1 h
  have ha : List.Forall₂ Aff [PGElem.id, .sym p] [((1 : M3), (0 : V3)), (-1, qv)] :=
    .cons ((aff_lin _ _).1 lin_id) (.cons h2 .nil)
  obtain ⟨cs, h7, h8⟩ := collect_pairs_of Aff (fun A B => (A.1 * B.1, A.1 *ᵥ B.2 + A.2)) aff_prod _ _ _ _ ha hb
  have : ∃ cs', cs = .id :: cs' := by
    simp only [pairs, List.flatMap_cons, List.map_cons, List.cons_append, collect, elemProd] at h7
    split at h7
    · cases h7
    · simp only [Except.ok.injEq] at h7
      exact ⟨_, h7.symm⟩
  obtain ⟨cs', rfl⟩ := this
  refine ⟨cs', _, ?_, h8, ?_, ?_, ?_⟩
  · unfold Fd3m
    rw [h1, h3]
    simp only [prodOf, PG.prod, prodCell]
    rw [h7]
  · simp only [List.flatMap_cons, List.flatMap_nil, List.append_nil, List.map_map]
    rw [List.nodup_append]
    refine ⟨h5.1.map fun W V h => ?_, h5.1.map fun W V h => ?_, ?_⟩
    · simpa using congrArg Prod.fst h
    · simpa using congrArg Prod.fst h
    · intro a ha b hb hab
      obtain ⟨W, hW, rfl⟩ := List.mem_map.1 ha
      obtain ⟨V, hV, rfl⟩ := List.mem_map.1 hb
      have e := congrArg Prod.fst hab
      simp at e
      refine neg_not_tetra W ((h5.2 W).1 hW) ?_
      rw [e, neg_neg]; exact (h5.2 V).1 hV
  · simp [h6]
  · intro A
    simp only [List.flatMap_cons, List.flatMap_nil, List.append_nil, List.map_map, List.mem_append, List.mem_map, Function.comp,
      Matrix.mulVec_zero, zero_add, Matrix.one_mul, neg_mul, Matrix.one_mul]
    constructor
    · rintro (⟨W, hW, rfl⟩ | ⟨W, hW, rfl⟩)
      · exact .inl ⟨(h5.2 W).1 hW, rfl⟩
      · exact .inr ⟨by simpa using (h5.2 W).1 hW, rfl⟩
    · rintro (⟨hW, e⟩ | ⟨hW, e⟩)
      · exact .inl ⟨A.1, (h5.2 _).2 hW, Prod.ext rfl e.symm⟩
      · exact .inr ⟨-A.1, (h5.2 _).2 hW, Prod.ext (neg_neg _) e.symm⟩

theorem fcc_iff (v : V3) : v ∈ translations fccCell ↔ Fcc v := by
  constructor
  · rintro ⟨k, rfl⟩
    refine ⟨![k 1 + k 2, k 0 + k 2, k 0 + k 1], fun i => ?_, ?_⟩
    · fin_cases i <;> simp [Fin.sum_univ_three, fccCell] <;> ring
    · refine ⟨k 0 + k 1 + k 2, ?_⟩
      simp; ring
  · rintro ⟨n, h1, m, h2⟩
    refine ⟨![m - n 0, m - n 1, m - n 2], ?_⟩
    have h2' : (n 0 : ℝ) + n 1 + n 2 = m + m := by exact_mod_cast h2
    ext i
    rw [h1]
    fin_cases i <;> simp [Fin.sum_univ_three, fccCell] <;> linarith

theorem tetra_diff (v w : V3) (hv : v ∈ tetra) (hw : w ∈ tetra) : Fcc ((1 / 4 : ℝ) • (v - w)) := by
  have key : ∀ a b : Z3, a ∈ vz → b ∈ vz → ∃ n : Z3, (∀ i, a i - b i = 2 * n i) ∧ Even (n 0 + n 1 + n 2) := by
    intro a b ha hb
    refine ⟨fun i => (a i - b i) / 2, ?_⟩
    have : ∀ a ∈ vz, ∀ b ∈ vz, (∀ i, a i - b i = 2 * ((a i - b i) / 2)) ∧
      Even ((a 0 - b 0) / 2 + (a 1 - b 1) / 2 + (a 2 - b 2) / 2) := by decide +kernel
    exact this a ha b hb
  rw [tetra_eq] at hv hw
  obtain ⟨a, ha, rfl⟩ := List.mem_map.1 hv
  obtain ⟨b, hb, rfl⟩ := List.mem_map.1 hw
  obtain ⟨n, h1, h2⟩ := key a b ha hb
  refine ⟨n, fun i => ?_, h2⟩
  have : (a i : ℝ) - b i = 2 * n i := by exact_mod_cast h1 i
  simp only [Pi.smul_apply, Pi.sub_apply, toV, smul_eq_mul]
  rw [this]; ring

theorem fcc_tetra (W : M3) (h : TetraSym W) (v : V3) (hv : v ∈ translations fccCell) : W *ᵥ v ∈ translations fccCell := by
  obtain ⟨k, rfl⟩ := hv
  have hrow : ∀ i, W *ᵥ fccCell i ∈ translations fccCell := by
    intro i
    have m0 : (![1, 1, 1] : V3) ∈ tetra := by simp [tetra]
    have : ∃ u ∈ tetra, fccCell i = (1 / 4 : ℝ) • (![1, 1, 1] - u) := by
      fin_cases i
      · exact ⟨![1, -1, -1], by simp [tetra], by ext j; fin_cases j <;> simp [fccCell] <;> norm_num⟩
      · exact ⟨![-1, 1, -1], by simp [tetra], by ext j; fin_cases j <;> simp [fccCell] <;> norm_num⟩
      · exact ⟨![-1, -1, 1], by simp [tetra], by ext j; fin_cases j <;> simp [fccCell] <;> norm_num⟩
    obtain ⟨u, hu, e⟩ := this
    rw [e, Matrix.mulVec_smul, Matrix.mulVec_sub, fcc_iff]
    exact tetra_diff _ _ (h.2 _ m0) (h.2 _ hu)
  rw [Matrix.mulVec_sum]
  refine AddSubgroup.sum_mem _ fun i _ => ?_
  rw [Matrix.mulVec_smul]
  have := AddSubgroup.zsmul_mem _ (hrow i) (k i)
  rwa [← Int.cast_smul_eq_zsmul ℝ] at this

theorem qv_tetra (W : M3) (h : TetraSym W) : W *ᵥ qv - qv ∈ translations fccCell := by
  have e : qv = (1 / 4 : ℝ) • ![1, 1, 1] := by ext i; fin_cases i <;> simp [qv]
  have m0 : (![1, 1, 1] : V3) ∈ tetra := by simp [tetra]
  have := tetra_diff _ _ (h.2 _ m0) m0
  rw [← fcc_iff, smul_sub, ← Matrix.mulVec_smul, ← e] at this
  exact this

theorem fd_mul (A B : M3 × V3) (hA : Fd A) (hB : Fd B) :
    ∃ C, Fd C ∧ C.1 = A.1 * B.1 ∧ C.2 - (A.1 *ᵥ B.2 + A.2) ∈ translations fccCell := by
  rcases hA with ⟨h1, h2⟩ | ⟨h1, h2⟩ <;> rcases hB with ⟨h3, h4⟩ | ⟨h3, h4⟩
  · exact ⟨(A.1 * B.1, 0), .inl ⟨isGrp_tetra.mul _ _ h1 h3, rfl⟩, rfl, by rw [h2, h4]; simp⟩
  · refine ⟨(A.1 * B.1, qv), .inr ⟨?_, rfl⟩, rfl, ?_⟩
    · have := isGrp_tetra.mul _ _ h1 h3; simpa using this
    · have := AddSubgroup.neg_mem _ (qv_tetra _ h1)
      rw [h2, h4, add_zero]
      rwa [neg_sub] at this
  · refine ⟨(A.1 * B.1, qv), .inr ⟨?_, rfl⟩, rfl, by rw [h2, h4]; simp⟩
    have := isGrp_tetra.mul _ _ h1 h3; simpa using this
  · refine ⟨(A.1 * B.1, 0), .inl ⟨?_, rfl⟩, rfl, ?_⟩
    · have := isGrp_tetra.mul _ _ h1 h3; simpa using this
    · have := qv_tetra _ h1
      rw [h2, h4]
      rw [Matrix.neg_mulVec] at this
      have e : (0 : V3) - (A.1 *ᵥ qv + qv) = -(A.1 *ᵥ qv) - qv := by abel
      rw [e]; exact this

theorem fd_inv (A : M3 × V3) (hA : Fd A) : ∃ C, Fd C ∧ C.1 * A.1 = 1 ∧ C.1 *ᵥ A.2 + C.2 ∈ translations fccCell := by
  rcases hA with ⟨h1, h2⟩ | ⟨h1, h2⟩
  · exact ⟨(A.1ᵀ, 0), .inl ⟨isGrp_tetra.tr _ h1, rfl⟩, h1.1, by rw [h2]; simp⟩
  · have ht := isGrp_tetra.tr _ h1
    refine ⟨(A.1ᵀ, qv), .inr ⟨by simpa using ht, rfl⟩, ?_, ?_⟩
    · have : (-A.1)ᵀ * (-A.1) = 1 := h1.1
      simpa using this
    · have := AddSubgroup.neg_mem _ (qv_tetra _ ht)
      rw [h2]
      rw [Matrix.transpose_neg, Matrix.neg_mulVec] at this
      have e : A.1ᵀ *ᵥ qv + qv = -(-(A.1ᵀ *ᵥ qv) - qv) := by abel
      show A.1ᵀ *ᵥ qv + qv ∈ _
      rw [e]; exact this

/-- `Fd3m()` has the unit cell of the face-centred cubic lattice and 48 elements, the identity first: the 24 maps of `Td()`, and their
    negatives followed by the translation by a quarter of the diagonal.  Its product table exists, products being compared up to
    translations of the unit cell. -/
theorem C134_Fd3m : ∃ (G : PG 3) (As : List (M3 × V3)), Fd3m = .ok G ∧ G.cell = some fccCell ∧ G.elems[0]? = some .id ∧
    List.Forall₂ (fun e A => Good e ∧ ∀ x, e.act x = some (A.1 *ᵥ x + A.2)) G.elems As ∧ As.Nodup ∧ As.length = 48 ∧
    (∀ A, A ∈ As ↔ (TetraSym A.1 ∧ A.2 = 0) ∨ (TetraSym (-A.1) ∧ A.2 = ![1 / 4, 1 / 4, 1 / 4])) ∧
    ∀ (κ : Type) [DecidableEq κ] (canon : Matrix (Fin 3 ⊕ Unit) (Fin 3 ⊕ Unit) ℝ → κ), Faithful canon (translations fccCell) →
      ∃ T, productTable canon G.elems = .ok T := by
  obtain ⟨es, As, h1, h2, h3, h4, h5⟩ := fd_aux
  refine ⟨_, As, h1, rfl, rfl, h2, h3, h4, h5, fun κ _ canon hc => ?_⟩
  have get : ∀ e ∈ PGElem.id :: es, ∃ A, Fd A ∧ Aff e A := by
    intro e he
    obtain ⟨i, hi, rfl⟩ := List.mem_iff_getElem.1 he
    have hi' : i < As.length := by rw [← h2.length_eq]; exact hi
    exact ⟨As[i], (h5 _).1 (List.getElem_mem hi'), List.Forall₂.get h2 hi hi'⟩
  have back : ∀ A, Fd A → ∃ e ∈ PGElem.id :: es, Aff e A := by
    intro A hA
    obtain ⟨i, hi, rfl⟩ := List.mem_iff_getElem.1 ((h5 A).2 hA)
    have hi' : i < (PGElem.id :: es).length := by rw [h2.length_eq]; exact hi
    exact ⟨(PGElem.id :: es)[i], List.getElem_mem hi', List.Forall₂.get h2 hi' hi⟩
  refine C42_closed hc _ (fun e he => (get e he).choose_spec.2.1) ?_ ?_
  · intro e he
    obtain ⟨A, hA, h⟩ := get e he
    obtain ⟨C, hC, c1, c2⟩ := fd_inv A hA
    obtain ⟨e', he', h'⟩ := back C hC
    refine ⟨e', he', _, c2, fun x => ?_⟩
    rw [h.2, Option.bind_some, h'.2, Matrix.mulVec_add, Matrix.mulVec_mulVec, c1, Matrix.one_mulVec, add_assoc]
  · intro a ha b hb
    obtain ⟨A, hA, h⟩ := get a ha
    obtain ⟨B, hB, h'⟩ := get b hb
    obtain ⟨C, hC, c1, c2⟩ := fd_mul A B hA hB
    obtain ⟨c, hc', h''⟩ := back C hC
    refine ⟨c, hc', _, c2, fun x y hy => ?_⟩
    rw [h'.2, Option.bind_some, h.2, Option.some.injEq] at hy
    rw [h''.2, ← hy, c1, Matrix.mulVec_add, Matrix.mulVec_mulVec]
    congr 1; abel

theorem diamond_iff (x : V3) : Diamond x ↔ x ∈ translations fccCell ∨ x - qv ∈ translations fccCell := by
  unfold Diamond
  rw [fcc_iff, fcc_iff]
  have : (fun i => x i - 1 / 4) = x - qv := by ext i; fin_cases i <;> simp [qv]
  rw [this]

theorem fd_diamond (A : M3 × V3) (hA : Fd A) (x : V3) (hx : Diamond x) : Diamond (A.1 *ᵥ x + A.2) := by
  rw [diamond_iff] at hx ⊢
  rcases hA with ⟨h1, h2⟩ | ⟨h1, h2⟩ <;> rw [h2] <;> rcases hx with hx | hx
  · left; rw [add_zero]; exact fcc_tetra _ h1 _ hx
  · right
    have := AddSubgroup.add_mem _ (fcc_tetra _ h1 _ hx) (qv_tetra _ h1)
    rw [Matrix.mulVec_sub, sub_add_sub_cancel] at this
    rwa [add_zero]
  · right
    have := AddSubgroup.neg_mem _ (fcc_tetra _ h1 _ hx)
    rw [Matrix.neg_mulVec, neg_neg] at this
    rwa [add_sub_cancel_right]
  · left
    have h3 := AddSubgroup.add_mem _ (fcc_tetra _ h1 _ hx) (qv_tetra _ h1)
    rw [Matrix.mulVec_sub, sub_add_sub_cancel] at h3
    have := AddSubgroup.neg_mem _ h3
    rw [Matrix.neg_mulVec] at this
    have e : A.1 *ᵥ x + qv = -(-(A.1 *ᵥ x) - qv) := by abel
    rw [e]; exact this

theorem short_diamond (y : V3) (hy : Diamond y) (hn : y ⬝ᵥ y = 3 / 16) : (4 : ℝ) • y ∈ tetra := by
  simp only [dotProduct, Fin.sum_univ_three] at hn
  rcases hy with ⟨n, h1, h2⟩ | ⟨n, h1, h2⟩
  · exfalso
    rw [h1, h1, h1] at hn
    have : ((n 0 * n 0 + n 1 * n 1 + n 2 * n 2) * 4 : ℝ) = 3 := by linarith
    have : (n 0 * n 0 + n 1 * n 1 + n 2 * n 2) * 4 = 3 := by exact_mod_cast this
    omega
  · have h3 : ∀ i, 4 * y i = 1 + 2 * n i := by intro i; have := h1 i; linarith
    have h4 : (1 + 2 * n 0 : ℝ) * (1 + 2 * n 0) + (1 + 2 * n 1) * (1 + 2 * n 1) + (1 + 2 * n 2) * (1 + 2 * n 2) = 3 := by
      rw [← h3, ← h3, ← h3]; linarith
    have h5 : (1 + 2 * n 0) * (1 + 2 * n 0) + (1 + 2 * n 1) * (1 + 2 * n 1) + (1 + 2 * n 2) * (1 + 2 * n 2) = 3 := by exact_mod_cast h4
    have h6 : ∀ m : ℤ, 1 ≤ (1 + 2 * m) * (1 + 2 * m) := by
      intro m
      have : 0 ≤ m * (m + 1) := by
        rcases le_or_gt 0 m with h | h
        · positivity
        · exact mul_nonneg_of_nonpos_of_nonpos (by omega) (by omega)
      nlinarith
    have h7 : ∀ i, n i = 0 ∨ n i = -1 := by
      intro i
      have e : (1 + 2 * n i) * (1 + 2 * n i) = 1 := by
        have a0 := h6 (n 0); have a1 := h6 (n 1); have a2 := h6 (n 2)
        fin_cases i <;> simp <;> omega
      rcases mul_self_eq_one_iff.1 e with h | h
      · left; omega
      · right; omega
    rw [mem_tetra_iff]
    refine ⟨fun i => ?_, ?_⟩
    · rw [Pi.smul_apply, smul_eq_mul, h3]
      rcases h7 i with h | h <;> rw [h] <;> norm_num
    · simp only [Pi.smul_apply, smul_eq_mul, h3]
      obtain ⟨r, hr⟩ := h2
      rcases h7 0 with a | a <;> rcases h7 1 with b | b <;> rcases h7 2 with c | c <;> rw [a, b, c] at hr ⊢ <;>
        first | (norm_num; done) | (exfalso; omega)

/-- `Fd3m()` is the space group of the diamond structure: all its elements map it into itself, and every isometry `x ↦ W x + w` which
    does so agrees with one of them up to a translation of the unit cell. -/
theorem C134_diamond : ∃ G : PG 3, Fd3m = .ok G ∧ (∀ e ∈ G.elems, ∀ x, Diamond x → ∃ y, e.act x = some y ∧ Diamond y) ∧
    ∀ (W : M3) (w : V3), Orth W → (∀ x, Diamond x → Diamond (W *ᵥ x + w)) →
      ∃ e ∈ G.elems, ∃ t, Fcc t ∧ ∀ x, e.act x = some (W *ᵥ x + w + t) := by
  obtain ⟨es, As, h1, h2, h3, h4, h5⟩ := fd_aux
  refine ⟨_, h1, ?_, ?_⟩
  · intro e he x hx
    obtain ⟨i, hi, rfl⟩ := List.mem_iff_getElem.1 he
    have hi' : i < As.length := by rw [← h2.length_eq]; exact hi
    exact ⟨_, (List.Forall₂.get h2 hi hi').2 x, fd_diamond _ ((h5 _).1 (List.getElem_mem hi')) x hx⟩
  · intro W w hW hd
    have back : ∀ A, Fd A → ∃ e ∈ PGElem.id :: es, Aff e A := by
      intro A hA
      obtain ⟨i, hi, rfl⟩ := List.mem_iff_getElem.1 ((h5 A).2 hA)
      have hi' : i < (PGElem.id :: es).length := by rw [h2.length_eq]; exact hi
      exact ⟨(PGElem.id :: es)[i], List.getElem_mem hi', List.Forall₂.get h2 hi' hi⟩
    have shift : ∀ x t, Diamond x → t ∈ translations fccCell → Diamond (x - t) := by
      intro x t hx ht
      rw [diamond_iff] at hx ⊢
      rcases hx with hx | hx
      · exact .inl (AddSubgroup.sub_mem _ hx ht)
      · right; rw [sub_right_comm]; exact AddSubgroup.sub_mem _ hx ht
    -- a linear map of the diamond structure is a symmetry of the tetrahedron
    have lin : ∀ V : M3, Orth V → (∀ x, Diamond x → Diamond (V *ᵥ x)) → TetraSym V := by
      intro V hV hx
      refine ⟨hV, fun v hv => ?_⟩
      have hq : qv = (1 / 4 : ℝ) • ![1, 1, 1] := by ext i; fin_cases i <;> simp [qv]
      have m0 : (![1, 1, 1] : V3) ∈ tetra := by simp [tetra]
      have hdv : Diamond ((1 / 4 : ℝ) • v) := by
        rw [diamond_iff]; right
        rw [hq, ← smul_sub, fcc_iff]
        exact tetra_diff _ _ hv m0
      have hnorm : v ⬝ᵥ v = 3 := by
        have := tetra_vertex v hv
        simp only [dotProduct, Fin.sum_univ_three]
        have h : ∀ i, v i * v i = 1 := fun i => by rcases this i with h | h <;> rw [h] <;> norm_num
        rw [h, h, h]; norm_num
      have := short_diamond _ (hx _ hdv) (by
        rw [orth_dot V hV, smul_dotProduct, dotProduct_smul, hnorm]; norm_num)
      rw [Matrix.mulVec_smul, smul_smul] at this
      norm_num at this
      exact this
    have h0 : Diamond w := by
      have := hd 0 (by rw [diamond_iff]; left; exact AddSubgroup.zero_mem _)
      rwa [Matrix.mulVec_zero, zero_add] at this
    rw [diamond_iff] at h0
    rcases h0 with h0 | h0
    · have hT : TetraSym W := lin W hW fun x hx => by
        have := shift _ _ (hd x hx) h0
        rwa [add_sub_cancel_right] at this
      obtain ⟨e, he, hx⟩ := back (W, 0) (.inl ⟨hT, rfl⟩)
      exact ⟨e, he, -w, (fcc_iff _).1 (AddSubgroup.neg_mem _ h0), fun x => by rw [hx.2]; simp⟩
    · have hT : TetraSym (-W) := lin (-W) (by unfold Orth at hW ⊢; simpa using hW) fun x hx => by
        have h6 := shift _ _ (hd x hx) h0
        have e : W *ᵥ x + w - (w - qv) = W *ᵥ x + qv := by abel
        rw [e] at h6
        have h7 := fd_diamond (-1, qv) (.inr ⟨by rw [neg_neg]; exact isGrp_tetra.one, rfl⟩) _ h6
        simp only [Matrix.neg_mulVec, Matrix.one_mulVec] at h7
        have e2 : -(W *ᵥ x + qv) + qv = (-W) *ᵥ x := by rw [Matrix.neg_mulVec]; abel
        rwa [e2] at h7
      obtain ⟨e, he, hx⟩ := back (W, qv) (.inr ⟨hT, rfl⟩)
      refine ⟨e, he, qv - w, (fcc_iff _).1 ?_, fun x => ?_⟩
      · have := AddSubgroup.neg_mem _ h0
        rwa [neg_sub] at this
      · rw [hx.2]
        simp only [Option.some.injEq]
        abel

/-! ## Examples -/

/-- the quarter turn is a symmetry of the cube and not of the tetrahedron; the mirror exchanging two axes is one of both. -/
example : CubeSym (toR quarter) ∧ ¬TetraSym (toR quarter) ∧ TetraSym (toR !![0, -1, 0; -1, 0, 0; 0, 0, 1]) := by
  refine ⟨cube_quarter, fun h => ?_, tetra_of_int _ (by decide +kernel) (by decide +kernel)⟩
  have h4 := h.2 ![1, 1, 1] (by simp [tetra])
  rw [mem_tetra_iff] at h4
  have := h4.2
  simp [toR, quarter, Matrix.mulVec, dotProduct, Fin.sum_univ_three] at this
  norm_num at this

/-- the two atoms in the unit cell of diamond, and a point between atoms. -/
example : Diamond 0 ∧ Diamond ![1 / 4, 1 / 4, 1 / 4] ∧ ¬Diamond ![1 / 8, 1 / 8, 1 / 8] := by
  refine ⟨.inl ⟨0, by simp, by simp⟩, .inr ⟨0, fun i => by fin_cases i <;> simp, by simp⟩, ?_⟩
  rintro (⟨n, h, _⟩ | ⟨n, h, _⟩)
  · have h0 := h 0
    simp at h0
    have : (4 * n 0 : ℝ) = 1 := by linarith
    have : 4 * n 0 = 1 := by exact_mod_cast this
    omega
  · have h0 := h 0
    simp at h0
    have : (4 * n 0 : ℝ) = -1 := by linarith
    have : 4 * n 0 = -1 := by exact_mod_cast this
    omega

end Verif.PGrp.Cubic
