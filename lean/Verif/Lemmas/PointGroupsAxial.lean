import Verif.Props.PointGroupsPlanar

/-! Lemmas on rotations and reflections of space. -/

set_option linter.unusedSectionVars false

namespace Verif.PGrp.Axial
open Verif.Hilbert (Err)
open Matrix
open Verif.PGrp.Planar (exists_angle angle_reduce angle_distinct range1_eq radians_step rotN_conj implements_congr)

abbrev V3 := Fin 3 → ℝ
abbrev M3 := Matrix (Fin 3) (Fin 3) ℝ

theorem crossEye_eq (a : V3) : crossEye a = !![0, -a 2, a 1; a 2, 0, -a 0; -a 1, a 0, 0] := by
  ext i j
  fin_cases i <;> fin_cases j <;> simp [crossEye, cross_apply, Matrix.one_apply]

theorem crossEye_mulVec (a x : V3) : crossEye a *ᵥ x = crossProduct a x := by
  rw [crossEye_eq]
  ext i
  fin_cases i <;> simp [Matrix.mulVec, dotProduct, Fin.sum_univ_three, cross_apply] <;> ring

theorem crossEye_tr (a : V3) : (crossEye a)ᵀ = -crossEye a := by
  rw [crossEye_eq]
  ext i j
  fin_cases i <;> fin_cases j <;> simp

/-- unit vectors. -/
def Unit3 (a : V3) : Prop := a ⬝ᵥ a = 1

theorem unit_sum {a : V3} (h : Unit3 a) : a 0 * a 0 + a 1 * a 1 + a 2 * a 2 = 1 := by
  simpa [Unit3, dotProduct, Fin.sum_univ_three] using h

theorem cross_sq {a : V3} (h : Unit3 a) : crossEye a * crossEye a = vecMulVec a a - 1 := by
  have h' := unit_sum h
  rw [crossEye_eq]
  ext i j
  fin_cases i <;> fin_cases j <;> simp [Matrix.mul_apply, Fin.sum_univ_three, vecMulVec_apply] <;>
    first | ring1 | linear_combination -h' | linear_combination h'

theorem cross_outer (a : V3) : crossEye a * vecMulVec a a = 0 := by
  rw [crossEye_eq]
  ext i j
  fin_cases i <;> fin_cases j <;> simp [Matrix.mul_apply, Fin.sum_univ_three, vecMulVec_apply] <;> ring

theorem outer_cross (a : V3) : vecMulVec a a * crossEye a = 0 := by
  rw [crossEye_eq]
  ext i j
  fin_cases i <;> fin_cases j <;> simp [Matrix.mul_apply, Fin.sum_univ_three, vecMulVec_apply] <;> ring

theorem outer_sq {a : V3} (h : Unit3 a) : vecMulVec a a * vecMulVec a a = vecMulVec a a := by
  rw [Matrix.vecMulVec_mul_vecMulVec, h, one_smul]

theorem outer_tr (a : V3) : (vecMulVec a a)ᵀ = vecMulVec a a := by
  ext i j; simp [vecMulVec_apply, mul_comm]

theorem rotMat_mul {a : V3} (h : Unit3 a) (s t : ℝ) : rotMat s a * rotMat t a = rotMat (s + t) a := by
  unfold rotMat
  simp only [Matrix.add_mul, Matrix.mul_add, Matrix.smul_mul, Matrix.mul_smul, Matrix.one_mul, Matrix.mul_one, cross_sq h, cross_outer,
    outer_cross, outer_sq h, smul_zero, add_zero, Real.cos_add, Real.sin_add]
  ext i j
  simp only [Matrix.add_apply, Matrix.smul_apply, Matrix.sub_apply, smul_eq_mul]
  ring

theorem rotMat_zero (a : V3) : rotMat 0 a = 1 := by simp [rotMat]

theorem rotMat_tr (t : ℝ) (a : V3) : (rotMat t a)ᵀ = rotMat (-t) a := by
  unfold rotMat
  simp only [Matrix.transpose_add, Matrix.transpose_smul, Matrix.transpose_one, crossEye_tr, outer_tr, Real.cos_neg, Real.sin_neg, smul_neg,
    neg_smul]

theorem rotMat_orth {a : V3} (h : Unit3 a) (t : ℝ) : (rotMat t a)ᵀ * rotMat t a = 1 := by
  rw [rotMat_tr, rotMat_mul h, neg_add_cancel, rotMat_zero]

theorem rotMat_pow {a : V3} (h : Unit3 a) (t : ℝ) (n : Nat) : rotMat t a ^ n = rotMat (n * t) a := by
  induction n with
  | zero => simp [rotMat_zero]
  | succ n ih => rw [pow_succ, ih, rotMat_mul h]; congr 1; push_cast; ring

theorem outer_mulVec (a x : V3) : vecMulVec a a *ᵥ x = (a ⬝ᵥ x) • a := by
  ext i; simp [Matrix.mulVec, vecMulVec_apply, dotProduct, Fin.sum_univ_three]; ring

theorem rotMat_mulVec (t : ℝ) (a x : V3) :
    rotMat t a *ᵥ x = Real.cos t • x + Real.sin t • crossProduct a x + ((1 - Real.cos t) * (a ⬝ᵥ x)) • a := by
  unfold rotMat
  rw [Matrix.add_mulVec, Matrix.add_mulVec, Matrix.smul_mulVec, Matrix.smul_mulVec, Matrix.smul_mulVec, Matrix.one_mulVec, crossEye_mulVec,
    outer_mulVec, smul_smul]

theorem rotMat_axis {a : V3} (h : Unit3 a) (t : ℝ) : rotMat t a *ᵥ a = a := by
  rw [rotMat_mulVec, cross_self, h]
  ext i; simp; ring

theorem rotMat_eq_one {a : V3} (h : Unit3 a) (t : ℝ) : rotMat t a = 1 ↔ ∃ k : ℤ, t = k * (2 * Real.pi) := by
  constructor
  · intro h1
    have h2 := congrArg Matrix.trace h1
    have h' := unit_sum h
    rw [rotMat, crossEye_eq] at h2
    simp [Matrix.trace, Fin.sum_univ_three, vecMulVec_apply] at h2
    have hc : Real.cos t = 1 := by
      have : 3 * Real.cos t + (1 - Real.cos t) * (a 0 * a 0 + a 1 * a 1 + a 2 * a 2) = 3 := by
        linear_combination h2
      rw [h'] at this
      linarith
    obtain ⟨k, hk⟩ := (Real.cos_eq_one_iff t).1 hc
    exact ⟨k, hk.symm⟩
  · rintro ⟨k, rfl⟩
    have h1 : Real.cos (k * (2 * Real.pi)) = 1 := Real.cos_int_mul_two_pi k
    have h2 : Real.sin (k * (2 * Real.pi)) = 0 := by
      have := Real.sin_int_mul_pi (k * 2)
      rw [← this]; congr 1; push_cast; ring
    unfold rotMat
    rw [h1, h2]; simp

theorem rotMat_inj {a : V3} (h : Unit3 a) (s t : ℝ) (e : rotMat s a = rotMat t a) : ∃ k : ℤ, s - t = k * (2 * Real.pi) := by
  rw [← rotMat_eq_one h, sub_eq_add_neg, ← rotMat_mul h, e, rotMat_mul h, add_neg_cancel, rotMat_zero]

theorem rotMat_det {a : V3} (h : Unit3 a) (t : ℝ) : (rotMat t a).det = 1 := by
  -- the square root of the rotation
  have e : rotMat t a = rotMat (t / 2) a * rotMat (t / 2) a := by rw [rotMat_mul h]; congr 1; ring
  have h1 : (rotMat (t / 2) a).det * (rotMat (t / 2) a).det = 1 := by
    have := congrArg Matrix.det (rotMat_orth h (t / 2))
    rwa [Matrix.det_mul, Matrix.det_transpose, Matrix.det_one] at this
  rw [e, Matrix.det_mul, h1]

theorem reflMat_tr (a : V3) : (reflMat a)ᵀ = reflMat a := by
  unfold reflMat; rw [Matrix.transpose_sub, Matrix.transpose_smul, outer_tr, Matrix.transpose_one]

theorem reflMat_sq {a : V3} (h : Unit3 a) : reflMat a * reflMat a = 1 := by
  unfold reflMat
  simp only [Matrix.sub_mul, Matrix.mul_sub, Matrix.smul_mul, Matrix.mul_smul, Matrix.one_mul, Matrix.mul_one, outer_sq h]
  ext i j
  simp only [Matrix.smul_apply, Matrix.sub_apply, smul_eq_mul]
  ring

theorem reflMat_orth {a : V3} (h : Unit3 a) : (reflMat a)ᵀ * reflMat a = 1 := by rw [reflMat_tr, reflMat_sq h]

theorem reflMat_mulVec (a x : V3) : reflMat a *ᵥ x = x - (2 * (a ⬝ᵥ x)) • a := by
  unfold reflMat
  rw [Matrix.sub_mulVec, Matrix.smul_mulVec, Matrix.one_mulVec, outer_mulVec, smul_smul]

theorem reflMat_axis {a : V3} (h : Unit3 a) : reflMat a *ᵥ a = -a := by
  rw [reflMat_mulVec, h]; ext i; simp; ring

/-- a reflection is minus the half turn around its normal. -/
theorem reflMat_eq (a : V3) : reflMat a = -rotMat Real.pi a := by
  unfold reflMat rotMat
  ext i j
  simp
  ring

theorem det_neg3 (W : M3) : (-W).det = -W.det := by
  rw [Matrix.det_neg]; norm_num

theorem reflMat_det {a : V3} (h : Unit3 a) : (reflMat a).det = -1 := by
  rw [reflMat_eq, det_neg3, rotMat_det h]

theorem refl_rot_comm (a : V3) (t : ℝ) : reflMat a * rotMat t a = rotMat t a * reflMat a := by
  unfold reflMat rotMat
  simp only [Matrix.sub_mul, Matrix.mul_sub, Matrix.add_mul, Matrix.mul_add, Matrix.smul_mul, Matrix.mul_smul, Matrix.one_mul,
    Matrix.mul_one, cross_outer, outer_cross, smul_zero, add_zero]
  ext i j
  simp only [Matrix.add_apply, Matrix.smul_apply, Matrix.sub_apply, smul_eq_mul, Matrix.zero_apply]
  ring

/-- a vector of length one normal to `a`. -/
theorem exists_normal (a : V3) : ∃ u : V3, Unit3 u ∧ u ⬝ᵥ a = 0 := by
  by_cases h : a 0 * a 0 + a 1 * a 1 = 0
  · have a0 : a 0 = 0 := by
      have := mul_self_nonneg (a 0); have := mul_self_nonneg (a 1)
      exact mul_self_eq_zero.1 (by linarith)
    exact ⟨![1, 0, 0], by simp [Unit3, dotProduct, Fin.sum_univ_three], by simp [dotProduct, Fin.sum_univ_three, a0]⟩
  · have hp : 0 < a 0 * a 0 + a 1 * a 1 := lt_of_le_of_ne (add_nonneg (mul_self_nonneg _) (mul_self_nonneg _)) (Ne.symm h)
    have hs := Real.mul_self_sqrt hp.le
    have hs' : Real.sqrt (a 0 * a 0 + a 1 * a 1) ≠ 0 := (Real.sqrt_pos.2 hp).ne'
    set r := Real.sqrt (a 0 * a 0 + a 1 * a 1)
    refine ⟨![-a 1 / r, a 0 / r, 0], ?_, ?_⟩
    · simp only [Unit3, dotProduct, Fin.sum_univ_three]
      simp
      field_simp
      linarith
    · simp only [dotProduct, Fin.sum_univ_three]
      simp
      field_simp
      ring

/-- the matrix with the columns `u`, `a × u`, `a`. -/
def frame (u a : V3) : M3 := of fun i j => ![u i, crossProduct a u i, a i] j

theorem frame_orth {u a : V3} (hu : Unit3 u) (ha : Unit3 a) (h : u ⬝ᵥ a = 0) : (frame u a)ᵀ * frame u a = 1 := by
  have hu' := unit_sum hu
  have ha' := unit_sum ha
  have h' : u 0 * a 0 + u 1 * a 1 + u 2 * a 2 = 0 := by simpa [dotProduct, Fin.sum_univ_three] using h
  ext i j
  fin_cases i <;> fin_cases j <;> simp [frame, Matrix.mul_apply, Fin.sum_univ_three, cross_apply]
  · linarith
  · ring
  · linarith
  · ring
  · linear_combination (u 0 * u 0 + u 1 * u 1 + u 2 * u 2) * ha' + hu' - (u 0 * a 0 + u 1 * a 1 + u 2 * a 2) * h'
  · ring
  · linarith
  · ring
  · linarith

/-- a rotation around `a` in the frame. -/
theorem frame_rot {u a : V3} (hu : Unit3 u) (ha : Unit3 a) (h : u ⬝ᵥ a = 0) (c s : ℝ) :
    frame u a * !![c, -s, 0; s, c, 0; 0, 0, 1] * (frame u a)ᵀ = c • (1 : M3) + s • crossEye a + (1 - c) • vecMulVec a a := by
  have hQ : frame u a * (frame u a)ᵀ = 1 := mul_eq_one_comm.1 (frame_orth hu ha h)
  have hu' := unit_sum hu
  have h' : u 0 * a 0 + u 1 * a 1 + u 2 * a 2 = 0 := by simpa [dotProduct, Fin.sum_univ_three] using h
  rw [← hQ, crossEye_eq]
  ext i j
  fin_cases i <;> fin_cases j <;>
    simp [frame, Matrix.mul_apply, Fin.sum_univ_three, cross_apply, vecMulVec_apply]
  · ring
  · linear_combination s * (-a 2 * hu' + u 2 * h')
  · linear_combination s * (a 1 * hu' - u 1 * h')
  · linear_combination s * (a 2 * hu' - u 2 * h')
  · ring
  · linear_combination s * (-a 0 * hu' + u 0 * h')
  · linear_combination s * (-a 1 * hu' + u 1 * h')
  · linear_combination s * (a 0 * hu' - u 0 * h')
  · ring

theorem proper_is_rot {a : V3} (ha : Unit3 a) (W : M3) (ho : Orth W) (hd : W.det = 1) (hW : W *ᵥ a = a) : ∃ t, W = rotMat t a := by
  obtain ⟨u, hu, hua⟩ := exists_normal a
  have hQ := frame_orth hu ha hua
  have hQ' : frame u a * (frame u a)ᵀ = 1 := mul_eq_one_comm.1 hQ
  set Q := frame u a with hQdef
  obtain ⟨B, hB⟩ : ∃ B, B = Qᵀ * W * Q := ⟨_, rfl⟩
  have hBo : Bᵀ * B = 1 := by rw [hB]; exact ortho_mul (ortho_mul (by rw [Matrix.transpose_transpose]; exact hQ') ho) hQ
  have hBd : B.det = 1 := by
    rw [hB, Matrix.det_mul, Matrix.det_mul, hd, mul_one, ← Matrix.det_mul, hQ, Matrix.det_one]
  have hW' : W = Q * B * Qᵀ := by
    rw [hB]
    symm
    calc Q * (Qᵀ * W * Q) * Qᵀ = (Q * Qᵀ) * W * (Q * Qᵀ) := by simp only [Matrix.mul_assoc]
      _ = W := by rw [hQ', Matrix.one_mul, Matrix.mul_one]
  -- the last column of `B`
  have hQe : Q *ᵥ ![0, 0, 1] = a := by
    ext i; fin_cases i <;> simp [hQdef, frame, Matrix.mulVec, dotProduct, Fin.sum_univ_three]
  have hQa : Qᵀ *ᵥ a = ![0, 0, 1] := by
    rw [← hQe, Matrix.mulVec_mulVec, hQ, Matrix.one_mulVec]
  have hBe : B *ᵥ ![0, 0, 1] = ![0, 0, 1] := by
    rw [hB, ← Matrix.mulVec_mulVec, ← Matrix.mulVec_mulVec, hQe, hW, hQa]
  have hBte : Bᵀ *ᵥ ![0, 0, 1] = ![0, 0, 1] := by
    conv_lhs => rw [← hBe]
    rw [Matrix.mulVec_mulVec, hBo, Matrix.one_mulVec]
  have col : ∀ i, B i 2 = (![0, 0, 1] : V3) i := by
    intro i
    have := congrFun hBe i
    simpa [Matrix.mulVec, dotProduct, Fin.sum_univ_three] using this
  have row : ∀ i, B 2 i = (![0, 0, 1] : V3) i := by
    intro i
    have := congrFun hBte i
    simpa [Matrix.mulVec, dotProduct, Fin.sum_univ_three] using this
  have c0 : B 0 2 = 0 := col 0
  have c1 : B 1 2 = 0 := col 1
  have c2 : B 2 2 = 1 := col 2
  have r0 : B 2 0 = 0 := row 0
  have r1 : B 2 1 = 0 := row 1
  have h00 := congrFun (congrFun hBo 0) 0
  have h01 := congrFun (congrFun hBo 0) 1
  simp only [Matrix.mul_apply, Matrix.transpose_apply, Fin.sum_univ_three, Matrix.one_apply_eq, r0, mul_zero, add_zero] at h00
  simp only [Matrix.mul_apply, Matrix.transpose_apply, Fin.sum_univ_three, r0, r1, mul_zero, add_zero] at h01
  rw [Matrix.one_apply_ne (by decide)] at h01
  rw [Matrix.det_fin_three, c0, c1, c2, r0, r1] at hBd
  have hBd' : B 0 0 * B 1 1 - B 0 1 * B 1 0 = 1 := by linarith
  obtain ⟨t, hc, hs⟩ := exists_angle (B 0 0) (B 1 0) h00
  have e11 : B 1 1 = B 0 0 := by linear_combination (- B 1 1) * h00 + B 0 0 * hBd' + B 1 0 * h01
  have e01 : B 0 1 = -B 1 0 := by linear_combination (- B 0 1) * h00 + B 0 0 * h01 - B 1 0 * hBd'
  refine ⟨t, ?_⟩
  have hBm : B = !![Real.cos t, -Real.sin t, 0; Real.sin t, Real.cos t, 0; 0, 0, 1] := by
    rw [← hc, ← hs]
    ext i j
    fin_cases i <;> fin_cases j <;> simp [c0, c1, c2, r0, r1, e11, e01]
  rw [hW', hBm, hQdef, frame_rot hu ha hua]
  rfl

theorem enum_C (n : Nat) (hn : 0 < n) {a : V3} (ha : Unit3 a) :
    Enum ((List.range n).map fun i : Nat => rotMat ((i : ℝ) * (2 * Real.pi / (n : ℝ))) a) (RotAbout n a) := by
  have hn' : (n : ℝ) ≠ 0 := by positivity
  constructor
  · refine List.Nodup.map_on ?_ List.nodup_range
    intro i hi j hj h
    obtain ⟨m, hm⟩ := rotMat_inj ha _ _ h
    exact angle_distinct n i j (List.mem_range.1 hi) (List.mem_range.1 hj) m hm
  · intro W
    rw [List.mem_map]
    constructor
    · rintro ⟨i, _, rfl⟩
      refine ⟨⟨rotMat_orth ha _, rotMat_det ha _, ?_⟩, rotMat_axis ha _⟩
      rw [rotMat_pow ha, rotMat_eq_one ha]
      exact ⟨i, by push_cast; field_simp⟩
    · rintro ⟨⟨ho, hd, hp⟩, hax⟩
      obtain ⟨t, rfl⟩ := proper_is_rot ha W ho hd hax
      rw [rotMat_pow ha, rotMat_eq_one ha] at hp
      obtain ⟨k, hk⟩ := hp
      obtain ⟨i, hi, m, rfl⟩ := angle_reduce n hn t k hk
      refine ⟨i, List.mem_range.2 hi, ?_⟩
      rw [← rotMat_mul ha, (rotMat_eq_one ha _).2 ⟨m, rfl⟩, Matrix.mul_one]

theorem isGrp_C (n : Nat) {a : V3} (ha : Unit3 a) : IsGrp (RotAbout n a) := by
  refine ⟨fun W h => h.1.1, ⟨⟨by simp [Orth], by simp, by simp⟩, by simp⟩, ?_, ?_⟩
  · rintro W V ⟨⟨h1, h2, h3⟩, h7⟩ ⟨⟨h4, h5, h6⟩, h8⟩
    refine ⟨⟨ortho_mul h1 h4, by rw [Matrix.det_mul, h2, h5, one_mul], ?_⟩, by rw [← Matrix.mulVec_mulVec, h8, h7]⟩
    obtain ⟨s, rfl⟩ := proper_is_rot ha W h1 h2 h7
    obtain ⟨t, rfl⟩ := proper_is_rot ha V h4 h5 h8
    have hc : Commute (rotMat s a) (rotMat t a) := by
      unfold Commute SemiconjBy; rw [rotMat_mul ha, rotMat_mul ha, add_comm]
    rw [hc.mul_pow, h3, h6, Matrix.mul_one]
  · rintro W ⟨⟨h1, h2, h3⟩, h4⟩
    refine ⟨⟨?_, by rw [Matrix.det_transpose, h2], by rw [← Matrix.transpose_pow, h3, Matrix.transpose_one]⟩, ?_⟩
    · unfold Orth; rw [Matrix.transpose_transpose]; exact mul_eq_one_comm.1 h1
    · conv_lhs => rw [← h4]
      rw [Matrix.mulVec_mulVec, h1, Matrix.one_mulVec]

theorem conj_C (n : Nat) {a : V3} (M : M3) (hM : Mᵀ * M = 1) (hMa : M *ᵥ a = a ∨ M *ᵥ a = -a) (W : M3) (h : RotAbout n a W) :
    RotAbout n a (Mᵀ * W * M) := by
  refine ⟨rotN_conj n M hM W h.1, ?_⟩
  have back : Mᵀ *ᵥ (M *ᵥ a) = a := by rw [Matrix.mulVec_mulVec, hM, Matrix.one_mulVec]
  rw [← Matrix.mulVec_mulVec, ← Matrix.mulVec_mulVec]
  rcases hMa with e | e
  · rw [e, h.2]; rw [e] at back; exact back
  · rw [e, Matrix.mulVec_neg, h.2]; rw [e] at back; exact back

end Verif.PGrp.Axial
