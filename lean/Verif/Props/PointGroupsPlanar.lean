import Verif.Lemmas.PointGroups
import Mathlib.Analysis.SpecialFunctions.Trigonometric.Angle

/-! C131: the point groups of the plane. -/

set_option linter.unusedSectionVars false

namespace Verif.PGrp.Planar
open Verif.Hilbert (Err)
open Matrix

/-! ## Lemmas -/

theorem rotMat_mul (a b : ℝ) : rotMat a * rotMat b = rotMat (a + b) := by
  ext i j
  fin_cases i <;> fin_cases j <;> simp [rotMat, Matrix.mul_apply, Fin.sum_univ_two, Real.cos_add, Real.sin_add] <;> ring

theorem rotMat_zero : rotMat 0 = 1 := by
  ext i j; fin_cases i <;> fin_cases j <;> simp [rotMat]

theorem rotMat_tr (a : ℝ) : (rotMat a)ᵀ = rotMat (-a) := by
  ext i j; fin_cases i <;> fin_cases j <;> simp [rotMat]

theorem rotMat_orth (a : ℝ) : (rotMat a)ᵀ * rotMat a = 1 := by
  rw [rotMat_tr, rotMat_mul, neg_add_cancel, rotMat_zero]

theorem rotMat_det (a : ℝ) : (rotMat a).det = 1 := by
  simp only [rotMat, Matrix.det_fin_two_of]
  have := Real.sin_sq_add_cos_sq a
  nlinarith

theorem rotMat_pow (a : ℝ) (n : Nat) : rotMat a ^ n = rotMat (n * a) := by
  induction n with
  | zero => simp [rotMat_zero]
  | succ n ih => rw [pow_succ, ih, rotMat_mul]; congr 1; push_cast; ring

theorem rotMat_eq_one (a : ℝ) : rotMat a = 1 ↔ ∃ k : ℤ, a = k * (2 * Real.pi) := by
  constructor
  · intro h
    have h0 := congrFun (congrFun h 0) 0
    simp only [rotMat, Matrix.of_apply, Matrix.cons_val_zero, Matrix.one_apply_eq] at h0
    obtain ⟨k, hk⟩ := (Real.cos_eq_one_iff a).1 (by simpa using h0)
    exact ⟨k, hk.symm⟩
  · rintro ⟨k, rfl⟩
    have h1 : Real.cos (k * (2 * Real.pi)) = 1 := Real.cos_int_mul_two_pi k
    have h2 : Real.sin (k * (2 * Real.pi)) = 0 := by
      have := Real.sin_int_mul_pi (k * 2)
      rw [← this]; congr 1; push_cast; ring
    ext i j; fin_cases i <;> fin_cases j <;> simp [rotMat, h1, h2]

theorem rotMat_inj (a b : ℝ) (h : rotMat a = rotMat b) : ∃ k : ℤ, a - b = k * (2 * Real.pi) := by
  rw [← rotMat_eq_one, sub_eq_add_neg, ← rotMat_mul, h, rotMat_mul, add_neg_cancel, rotMat_zero]

/-- a pair of coordinates of length one is a cosine and a sine. -/
theorem exists_angle (x y : ℝ) (h : x * x + y * y = 1) : ∃ t, x = Real.cos t ∧ y = Real.sin t := by
  have hn : ‖(⟨x, y⟩ : ℂ)‖ = 1 := by
    rw [Complex.norm_def, Complex.normSq_mk, h, Real.sqrt_one]
  refine ⟨Complex.arg ⟨x, y⟩, ?_, ?_⟩
  · have := Complex.norm_mul_cos_arg ⟨x, y⟩
    rw [hn, one_mul] at this
    exact this.symm
  · have := Complex.norm_mul_sin_arg ⟨x, y⟩
    rw [hn, one_mul] at this
    exact this.symm

theorem proper_is_rot (W : Matrix (Fin 2) (Fin 2) ℝ) (ho : Orth W) (hd : W.det = 1) : ∃ t, W = rotMat t := by
  have h00 := congrFun (congrFun ho 0) 0
  have h01 := congrFun (congrFun ho 0) 1
  have h11 := congrFun (congrFun ho 1) 1
  simp only [Matrix.mul_apply, Matrix.transpose_apply, Fin.sum_univ_two, Matrix.one_apply_eq] at h00 h11
  simp only [Matrix.mul_apply, Matrix.transpose_apply, Fin.sum_univ_two] at h01
  rw [Matrix.one_apply_ne (by decide)] at h01
  rw [Matrix.det_fin_two] at hd
  obtain ⟨t, hc, hs⟩ := exists_angle (W 0 0) (W 1 0) h00
  have e11 : W 1 1 = W 0 0 := by linear_combination (- W 1 1) * h00 + W 0 0 * hd + W 1 0 * h01
  have e01 : W 0 1 = -W 1 0 := by linear_combination (- W 0 1) * h00 + W 0 0 * h01 - W 1 0 * hd
  refine ⟨t, ?_⟩
  ext i j
  fin_cases i <;> fin_cases j
  · simpa [rotMat] using hc
  · simpa [rotMat, hs] using e01
  · simpa [rotMat] using hs
  · simpa [rotMat, hc] using e11

/-- the angle of element `i` of `C(n)`. -/
theorem radians_step (n i : Nat) : radians (360 / ((n : ℤ) : ℝ) * (i : ℝ)) = (i : ℝ) * (2 * Real.pi / (n : ℝ)) := by
  unfold radians; push_cast; ring

/-- angles which are multiples of a full turn divided by `n`, up to full turns. -/
theorem angle_reduce (n : Nat) (hn : 0 < n) (t : ℝ) (k : ℤ) (h : (n : ℝ) * t = k * (2 * Real.pi)) :
    ∃ i < n, ∃ m : ℤ, t = (i : ℝ) * (2 * Real.pi / (n : ℝ)) + m * (2 * Real.pi) := by
  have hn' : (n : ℝ) ≠ 0 := by positivity
  have hz : (n : ℤ) ≠ 0 := by omega
  refine ⟨(k % (n : ℤ)).toNat, ?_, k / (n : ℤ), ?_⟩
  · have h1 := Int.emod_lt_of_pos k (by omega : (0 : ℤ) < n)
    have h2 := Int.emod_nonneg k hz
    omega
  · have h2 := Int.emod_nonneg k hz
    have e : (((k % (n : ℤ)).toNat : ℕ) : ℝ) = ((k % (n : ℤ) : ℤ) : ℝ) := by
      rw [← Int.cast_natCast, Int.toNat_of_nonneg h2]
    rw [e]
    have h3 : (k : ℝ) = ((k % (n : ℤ) : ℤ) : ℝ) + (n : ℝ) * ((k / (n : ℤ) : ℤ) : ℝ) := by
      have := Int.emod_add_mul_ediv k (n : ℤ)
      exact_mod_cast this.symm
    field_simp
    have : t * (n : ℝ) = k * (2 * Real.pi) := by linarith
    rw [this, h3]
    ring

theorem angle_distinct (n i j : Nat) (hi : i < n) (hj : j < n) (m : ℤ)
    (h : (i : ℝ) * (2 * Real.pi / (n : ℝ)) - (j : ℝ) * (2 * Real.pi / (n : ℝ)) = m * (2 * Real.pi)) : i = j := by
  have hn : (n : ℝ) ≠ 0 := by have : 0 < n := by omega
                              positivity
  have h1 : ((i : ℝ) - (j : ℝ)) = m * (n : ℝ) := by
    field_simp at h
    linarith
  have h2 : (i : ℤ) - (j : ℤ) = m * (n : ℤ) := by exact_mod_cast h1
  have hm : m = 0 := by
    by_contra hm
    rcases lt_or_gt_of_ne hm with h3 | h3
    · have : m * (n : ℤ) ≤ -1 * (n : ℤ) := Int.mul_le_mul_of_nonneg_right (by omega) (by omega)
      omega
    · have : 1 * (n : ℤ) ≤ m * (n : ℤ) := Int.mul_le_mul_of_nonneg_right (by omega) (by omega)
      omega
  rw [hm] at h2
  omega

theorem range1_eq (n : Nat) (hn : 0 < n) (f : Nat → Matrix (Fin d) (Fin d) ℝ) (h0 : f 0 = 1) :
    1 :: (range1 (n : ℤ)).map f = (List.range n).map f := by
  obtain ⟨m, rfl⟩ : ∃ m, n = m + 1 := ⟨n - 1, by omega⟩
  have : range1 ((m + 1 : ℕ) : ℤ) = List.range' 1 m := by
    unfold range1; congr 1; omega
  rw [this, List.range_eq_range', List.range'_succ, List.map_cons, h0]

theorem rotation_ok (angle : ℝ) : rotation angle = .ok ⟨block (rotMat (radians angle)) 0⟩ := mkPG_none _ (rotMat_orth _)

theorem pre_C (n : Nat) (hn : 0 < n) : Pre (C (n : ℤ)) ((List.range n).map fun i : Nat => rotMat ((i : ℝ) * (2 * Real.pi / (n : ℝ)))) := by
  have h := pre_idAnd (fun i : Nat => symElem (rotation (360 / ((n : ℤ) : ℝ) * (i : ℝ)))) (range1 (n : ℤ))
    (fun i : Nat => rotMat ((i : ℝ) * (2 * Real.pi / (n : ℝ))))
    (by intro i _; rw [rotation_ok, radians_step]; rfl) (fun i _ => rotMat_orth _)
  rwa [range1_eq n hn _ (by simp [rotMat_zero])] at h

theorem enum_C (n : Nat) (hn : 0 < n) : Enum ((List.range n).map fun i : Nat => rotMat ((i : ℝ) * (2 * Real.pi / (n : ℝ)))) (RotN n) := by
  have hn' : (n : ℝ) ≠ 0 := by positivity
  constructor
  · refine List.Nodup.map_on ?_ List.nodup_range
    intro i hi j hj h
    obtain ⟨m, hm⟩ := rotMat_inj _ _ h
    exact angle_distinct n i j (List.mem_range.1 hi) (List.mem_range.1 hj) m hm
  · intro W
    rw [List.mem_map]
    constructor
    · rintro ⟨i, _, rfl⟩
      refine ⟨rotMat_orth _, rotMat_det _, ?_⟩
      rw [rotMat_pow, rotMat_eq_one]
      exact ⟨i, by push_cast; field_simp⟩
    · rintro ⟨ho, hd, hp⟩
      obtain ⟨t, rfl⟩ := proper_is_rot W ho hd
      rw [rotMat_pow, rotMat_eq_one] at hp
      obtain ⟨k, hk⟩ := hp
      obtain ⟨i, hi, m, rfl⟩ := angle_reduce n hn t k hk
      refine ⟨i, List.mem_range.2 hi, ?_⟩
      rw [← rotMat_mul, (rotMat_eq_one _).2 ⟨m, rfl⟩, Matrix.mul_one]

theorem isGrp_C (n : Nat) : IsGrp (d := 2) (RotN n) := by
  refine ⟨fun W h => h.1, ⟨by simp [Orth], by simp, by simp⟩, ?_, ?_⟩
  · rintro W V ⟨h1, h2, h3⟩ ⟨h4, h5, h6⟩
    refine ⟨ortho_mul h1 h4, by rw [Matrix.det_mul, h2, h5, one_mul], ?_⟩
    obtain ⟨s, rfl⟩ := proper_is_rot W h1 h2
    obtain ⟨t, rfl⟩ := proper_is_rot V h4 h5
    have hc : Commute (rotMat s) (rotMat t) := by
      unfold Commute SemiconjBy; rw [rotMat_mul, rotMat_mul, add_comm]
    rw [hc.mul_pow, h3, h6, Matrix.mul_one]
  · rintro W ⟨h1, h2, h3⟩
    refine ⟨?_, by rw [Matrix.det_transpose, h2], by rw [← Matrix.transpose_pow, h3, Matrix.transpose_one]⟩
    unfold Orth; rw [Matrix.transpose_transpose]; exact mul_eq_one_comm.1 h1

theorem reflMat_orth (t : ℝ) : (reflMat t)ᵀ * reflMat t = 1 := by
  have := Real.sin_sq_add_cos_sq t
  ext i j
  fin_cases i <;> fin_cases j <;> simp [reflMat, Matrix.mul_apply, Fin.sum_univ_two] <;> nlinarith

theorem reflMat_sq (t : ℝ) : reflMat t * reflMat t = 1 := by
  have := Real.sin_sq_add_cos_sq t
  ext i j
  fin_cases i <;> fin_cases j <;> simp [reflMat, Matrix.mul_apply, Fin.sum_univ_two] <;> nlinarith

theorem reflMat_det (t : ℝ) : (reflMat t).det = -1 := by
  simp only [reflMat, Matrix.det_fin_two_of]
  have := Real.sin_sq_add_cos_sq t
  nlinarith

theorem rotN_conj {d : Nat} (n : Nat) (M : Matrix (Fin d) (Fin d) ℝ) (hM : Mᵀ * M = 1) (W : Matrix (Fin d) (Fin d) ℝ) (h : RotN n W) :
    RotN n (Mᵀ * W * M) := by
  obtain ⟨h1, h2, h3⟩ := h
  have hM' : M * Mᵀ = 1 := mul_eq_one_comm.1 hM
  refine ⟨ortho_mul (ortho_mul (by rw [Matrix.transpose_transpose]; exact hM') h1) hM, ?_, ?_⟩
  · have : Mᵀ.det * M.det = 1 := by rw [← Matrix.det_mul, hM, Matrix.det_one]
    rw [Matrix.det_mul, Matrix.det_mul, h2, mul_one, this]
  · have : ∀ m, (Mᵀ * W * M) ^ m = Mᵀ * W ^ m * M := by
      intro m
      induction m with
      | zero => simp [hM]
      | succ m ih =>
        rw [pow_succ, ih, pow_succ]
        calc Mᵀ * W ^ m * M * (Mᵀ * W * M) = Mᵀ * W ^ m * (M * Mᵀ) * W * M := by simp only [Matrix.mul_assoc]
          _ = _ := by rw [hM', Matrix.mul_one]; simp only [Matrix.mul_assoc]
    rw [this, h3, Matrix.mul_one, hM]

/-! ## C131 -/

/-- `rotation(angle)` is the counterclockwise rotation by `angle` degrees: a vector of length `r` in the direction `phi` goes to the one
    in the direction `phi + angle`. -/
theorem C131_rotation (angle r phi : ℝ) :
    ∃ p, rotation angle = .ok p ∧ p.act ![r * Real.cos (radians phi), r * Real.sin (radians phi)] =
      ![r * Real.cos (radians (phi + angle)), r * Real.sin (radians (phi + angle))] := by
  refine ⟨_, rotation_ok angle, ?_⟩
  have e : radians (phi + angle) = radians phi + radians angle := by unfold radians; ring
  rw [act_block, e, Real.cos_add, Real.sin_add, add_zero]
  ext i; fin_cases i <;> simp [rotMat, Matrix.mulVec, dotProduct, Fin.sum_univ_two] <;> ring

/-- `reflection(angle)` is the mirror image in the line through the origin at `angle` degrees: a vector in the direction `phi` goes to
    the one in the direction `2 angle - phi`. -/
theorem C131_reflection (angle r phi : ℝ) :
    ∃ p, reflection angle = .ok p ∧ p.act ![r * Real.cos (radians phi), r * Real.sin (radians phi)] =
      ![r * Real.cos (radians (2 * angle - phi)), r * Real.sin (radians (2 * angle - phi))] := by
  refine ⟨_, mkPG_none _ (reflMat_orth _), ?_⟩
  have e : radians (2 * angle - phi) = radians angle * 2 - radians phi := by unfold radians; ring
  rw [act_block, e, Real.cos_sub, Real.sin_sub, add_zero]
  ext i; fin_cases i <;> simp [reflMat, Matrix.mulVec, dotProduct, Fin.sum_univ_two] <;> ring

/-- `C(n)` consists of the `n` rotations of the plane whose `n`-th power is the identity. -/
theorem C131_C (n : Nat) (hn : 0 < n) : Implements (C (n : ℤ)) (RotN n) n :=
  implements_of _ _ _ _ (pre_C n hn) (enum_C n hn) (isGrp_C n) (by simp)

/-- element `i` of `C(n)` is the counterclockwise rotation by `360 i / n` degrees. -/
theorem C131_C_elements (n : Nat) (hn : 0 < n) (i : Nat) (hi : i < n) :
    ∃ G e, C (n : ℤ) = .ok G ∧ G.elems[i]? = some e ∧ ∀ r phi,
      e.act ![r * Real.cos (radians phi), r * Real.sin (radians phi)] =
        some ![r * Real.cos (radians (phi + 360 * i / n)), r * Real.sin (radians (phi + 360 * i / n))] := by
  obtain ⟨es, h1, h2⟩ := pre_C n hn
  have hlen : i < (PGElem.id :: es).length := by rw [h2.length_eq]; simpa using hi
  refine ⟨_, _, h1, List.getElem?_eq_getElem hlen, fun r phi => ?_⟩
  have h3 := List.Forall₂.get h2 hlen (by simpa using hi)
  simp only [List.get_eq_getElem, List.getElem_map, List.getElem_range] at h3
  rw [h3.2]
  have e : radians (phi + 360 * i / n) = radians phi + (i : ℝ) * (2 * Real.pi / (n : ℝ)) := by unfold radians; ring
  rw [e, Real.cos_add, Real.sin_add]
  congr 1
  ext i; fin_cases i <;> simp [rotMat, Matrix.mulVec, dotProduct, Fin.sum_univ_two] <;> ring

/-- `D(n, axis)` consists of the rotations of `C(n)` and of these followed by the mirror image in the line at `axis` degrees: `2 n`
    elements. -/
theorem C131_D (n : Nat) (hn : 0 < n) (axis : ℝ) (M : Matrix (Fin 2) (Fin 2) ℝ)
    (hM : ∀ r phi, M *ᵥ ![r * Real.cos (radians phi), r * Real.sin (radians phi)] =
      ![r * Real.cos (radians (2 * axis - phi)), r * Real.sin (radians (2 * axis - phi))]) :
    Implements (D (n : ℤ) axis) (WithCoset M (RotN n)) (2 * n) := by
  have e : M = reflMat (radians axis * 2) := by
    have h0 := hM 1 0
    have h1 := hM 1 90
    have e0 : radians 0 = 0 := by simp [radians]
    have e1 : radians 90 = Real.pi / 2 := by unfold radians; ring
    have e2 : radians (2 * axis - 90) = radians axis * 2 - Real.pi / 2 := by unfold radians; ring
    have e3 : radians (2 * axis - 0) = radians axis * 2 := by unfold radians; ring
    rw [e0, e3] at h0
    rw [e1, e2, Real.cos_sub_pi_div_two, Real.sin_sub_pi_div_two] at h1
    ext i j
    have h00 := congrFun h0 i
    have h11 := congrFun h1 i
    fin_cases i <;> fin_cases j <;> simp [Matrix.mulVec, dotProduct, Fin.sum_univ_two, reflMat] at h00 h11 ⊢ <;> assumption
  subst e
  have ho := reflMat_orth (radians axis * 2)
  refine implements_of _ _ _ _ (pre_prod _ _ _ _ (pre_pair _ ho) (pre_C n hn)) (enum_coset (isGrp_C n) _ ho ?_ _ (enum_C n hn))
    (isGrp_coset (isGrp_C n) _ ho ?_ fun W h => rotN_conj n _ ho W h) (by rw [length_coset]; simp)
  · intro h
    have := h.2.1
    rw [reflMat_det] at this
    norm_num at this
  · rw [reflMat_sq]; exact (isGrp_C n).one

/-- mirror image in the x-axis. -/
theorem mirror_x : reflMat (radians 0 * 2) = !![1, 0; 0, -1] := by
  simp [reflMat, radians]

theorem implements_congr {d : Nat} {r : Except Err (PG d)} {P Q : Matrix (Fin d) (Fin d) ℝ → Prop} {k : Nat} (h : ∀ W, P W ↔ Q W)
    (hi : Implements r P k) : Implements r Q k := by
  have : P = Q := funext fun W => propext (h W)
  exact this ▸ hi

theorem D_mirror (n : Nat) (hn : 0 < n) : Implements (D (n : ℤ) 0) (fun W => RotN n W ∨ RotN n (!![1, 0; 0, -1] * W)) (2 * n) := by
  refine implements_congr (fun W => ?_) (C131_D n hn 0 !![1, 0; 0, -1] ?_)
  · have ho : (!![1, 0; 0, -1] : Matrix (Fin 2) (Fin 2) ℝ)ᵀ * !![1, 0; 0, -1] = 1 := by
      rw [← mirror_x]; exact reflMat_orth _
    rw [coset_iff _ ho]
    have : (!![1, 0; 0, -1] : Matrix (Fin 2) (Fin 2) ℝ)ᵀ = !![1, 0; 0, -1] := by
      ext i j; fin_cases i <;> fin_cases j <;> simp
    rw [this]
  · intro r phi
    have e : radians (2 * 0 - phi) = -radians phi := by unfold radians; ring
    rw [e]
    ext i; fin_cases i <;> simp [Matrix.mulVec, dotProduct, Fin.sum_univ_two]

/-- two numbers of the same size, up to signs. -/
theorem two_signs (x y a : ℝ) (h1 : x + y = a ∨ x + y = -a) (h2 : x - y = a ∨ x - y = -a) :
    ((x = a ∨ x = -a) ∧ y = 0) ∨ (x = 0 ∧ (y = a ∨ y = -a)) := by
  rcases h1 with h1 | h1 <;> rcases h2 with h2 | h2
  · left; exact ⟨.inl (by linarith), by linarith⟩
  · right; exact ⟨by linarith, .inl (by linarith)⟩
  · right; exact ⟨by linarith, .inr (by linarith)⟩
  · left; exact ⟨.inr (by linarith), by linarith⟩

theorem mulVec_two (W : Matrix (Fin 2) (Fin 2) ℝ) (v : Fin 2 → ℝ) (i : Fin 2) : (W *ᵥ v) i = W i 0 * v 0 + W i 1 * v 1 := by
  simp [Matrix.mulVec, dotProduct, Fin.sum_univ_two]

theorem mat_two (W : Matrix (Fin 2) (Fin 2) ℝ) : W = !![W 0 0, W 0 1; W 1 0, W 1 1] := Matrix.eta_fin_two W

theorem rotN_two (W : Matrix (Fin 2) (Fin 2) ℝ) : RotN 2 W ↔ W = !![1, 0; 0, 1] ∨ W = !![-1, 0; 0, -1] := by
  rw [← (enum_C 2 (by decide)).2]
  have e : (1 : ℝ) * (2 * Real.pi / 2) = Real.pi := by ring
  simp only [List.range, List.range.loop, List.map_cons, List.map_nil, List.mem_cons, List.not_mem_nil, or_false]
  simp [rotMat]

theorem rotN_four (W : Matrix (Fin 2) (Fin 2) ℝ) :
    RotN 4 W ↔ W = !![1, 0; 0, 1] ∨ W = !![0, -1; 1, 0] ∨ W = !![-1, 0; 0, -1] ∨ W = !![0, 1; -1, 0] := by
  rw [← (enum_C 4 (by decide)).2]
  have e1 : 2 * Real.pi / 4 = Real.pi / 2 := by ring
  have e2 : 2 * (Real.pi / 2) = Real.pi := by ring
  have e3 : 3 * (Real.pi / 2) = Real.pi / 2 + Real.pi := by ring
  simp only [List.range, List.range.loop, List.map_cons, List.map_nil, List.mem_cons, List.not_mem_nil, or_false]
  simp [rotMat, e1, e2, e3, Real.cos_add, Real.sin_add]

/-- `rectangle()` consists of the 4 orthogonal maps which take the vertices (±a, ±b) of a rectangle, not a square, to vertices. -/
theorem C131_rectangle (a b : ℝ) (ha : 0 < a) (hb : 0 < b) (hab : a ≠ b) :
    Implements rectangle (fun W => Orth W ∧ ∀ v : Fin 2 → ℝ, ((v 0 = a ∨ v 0 = -a) ∧ (v 1 = b ∨ v 1 = -b)) →
      ((W *ᵥ v) 0 = a ∨ (W *ᵥ v) 0 = -a) ∧ ((W *ᵥ v) 1 = b ∨ (W *ᵥ v) 1 = -b)) 4 := by
  refine implements_congr (fun W => ?_) (D_mirror 2 (by decide))
  rw [rotN_two, rotN_two]
  constructor
  · intro h
    have : W = !![1, 0; 0, 1] ∨ W = !![-1, 0; 0, -1] ∨ W = !![1, 0; 0, -1] ∨ W = !![-1, 0; 0, 1] := by
      rcases h with (h | h) | (h | h)
      · exact .inl h
      · exact .inr (.inl h)
      · right; right; left
        have := congrArg (fun X => !![1, 0; 0, -1] * X) h
        simpa only [← Matrix.mul_assoc, Matrix.mul_fin_two, ← Matrix.one_fin_two, Matrix.one_mul, mul_zero, mul_one, zero_mul, add_zero,
          zero_add, mul_neg, neg_mul, neg_neg, neg_zero] using this
      · right; right; right
        have := congrArg (fun X => !![1, 0; 0, -1] * X) h
        simpa only [← Matrix.mul_assoc, Matrix.mul_fin_two, ← Matrix.one_fin_two, Matrix.one_mul, mul_zero, mul_one, zero_mul, add_zero,
          zero_add, mul_neg, neg_mul, neg_neg, neg_zero] using this
    have ho : Orth W := by
      unfold Orth
      rcases this with rfl | rfl | rfl | rfl <;> (ext i j; fin_cases i <;> fin_cases j <;> simp [Matrix.mul_apply, Fin.sum_univ_two])
    refine ⟨ho, fun v ⟨h0, h1⟩ => ?_⟩
    rw [mulVec_two, mulVec_two]
    rcases this with rfl | rfl | rfl | rfl <;> rcases h0 with h0 | h0 <;> rcases h1 with h1 | h1 <;> simp [h0, h1]
  · rintro ⟨ho, hv⟩
    have v1 := hv ![a, b] (by simp)
    have v2 := hv ![a, -b] (by simp)
    simp only [mulVec_two, Matrix.cons_val_zero, Matrix.cons_val_one, mul_neg, ← sub_eq_add_neg] at v1 v2
    have r0 := two_signs _ _ _ v1.1 v2.1
    have r1 := two_signs (W 1 0 * a) (W 1 1 * b) b v1.2 v2.2
    have hc := congrFun (congrFun ho 0) 0
    simp only [Matrix.mul_apply, Matrix.transpose_apply, Fin.sum_univ_two, Matrix.one_apply_eq] at hc
    have ha' := ha.ne'
    have hb' := hb.ne'
    have z0 : ∀ x, x * a = 0 → x = 0 := fun x h => (mul_eq_zero.1 h).resolve_right ha'
    have z1 : ∀ x, x * b = 0 → x = 0 := fun x h => (mul_eq_zero.1 h).resolve_right hb'
    have o0 : ∀ x, (x * a = a ∨ x * a = -a) → x = 1 ∨ x = -1 := by
      rintro x (h | h)
      · left; exact mul_right_cancel₀ ha' (by rw [h, one_mul])
      · right; exact mul_right_cancel₀ ha' (by rw [h]; ring)
    have o1 : ∀ x, (x * b = b ∨ x * b = -b) → x = 1 ∨ x = -1 := by
      rintro x (h | h)
      · left; exact mul_right_cancel₀ hb' (by rw [h, one_mul])
      · right; exact mul_right_cancel₀ hb' (by rw [h]; ring)
    have key : (W 0 0 = 1 ∨ W 0 0 = -1) ∧ W 0 1 = 0 ∧ W 1 0 = 0 ∧ (W 1 1 = 1 ∨ W 1 1 = -1) := by
      rcases r0 with ⟨p, q⟩ | ⟨p, q⟩ <;> rcases r1 with ⟨p', q'⟩ | ⟨p', q'⟩
      · exfalso
        have e0 : W 0 0 * W 0 0 = 1 := by rcases o0 _ p with h | h <;> rw [h] <;> norm_num
        have e1 : W 1 0 * W 1 0 = 0 := by linarith
        have e2 : W 1 0 = 0 := by simpa using e1
        rw [e2, zero_mul] at p'
        rcases p' with h | h <;> linarith
      · exact ⟨o0 _ p, z1 _ q, z0 _ p', o1 _ q'⟩
      · exfalso
        have e0 : W 0 0 = 0 := z0 _ p
        have e1 : W 1 0 * W 1 0 = 1 := by rw [e0] at hc; linarith
        have e2 : (W 1 0 * a) * (W 1 0 * a) = b * b := by rcases p' with h | h <;> rw [h] <;> ring
        have e3 : a * a = b * b := by
          calc a * a = (W 1 0 * W 1 0) * (a * a) := by rw [e1, one_mul]
            _ = (W 1 0 * a) * (W 1 0 * a) := by ring
            _ = b * b := e2
        rcases mul_self_eq_mul_self_iff.1 e3 with h | h
        · exact hab h
        · linarith
      · exfalso
        rw [z0 _ p, z0 _ p'] at hc
        norm_num at hc
    obtain ⟨k1, k2, k3, k4⟩ := key
    rw [mat_two W, k2, k3]
    rcases k1 with k1 | k1 <;> rcases k4 with k4 | k4 <;> rw [k1, k4] <;> simp [Matrix.mul_fin_two]

/-- `square()` consists of the 8 orthogonal maps which take the vertices (±1, ±1) of the square to vertices. -/
theorem C131_square :
    Implements square (fun W => Orth W ∧ ∀ v : Fin 2 → ℝ, (∀ i, v i = 1 ∨ v i = -1) → ∀ i, (W *ᵥ v) i = 1 ∨ (W *ᵥ v) i = -1) 8 := by
  refine implements_congr (fun W => ?_) (D_mirror 4 (by decide))
  rw [rotN_four, rotN_four]
  constructor
  · intro h
    have : ∃ p q, (p = 1 ∨ p = -1) ∧ (q = 1 ∨ q = -1) ∧ (W = !![p, 0; 0, q] ∨ W = !![0, p; q, 0]) := by
      rcases h with (h | h | h | h) | h
      · exact ⟨1, 1, .inl rfl, .inl rfl, .inl h⟩
      · exact ⟨-1, 1, .inr rfl, .inl rfl, .inr h⟩
      · exact ⟨-1, -1, .inr rfl, .inr rfl, .inl h⟩
      · exact ⟨1, -1, .inl rfl, .inr rfl, .inr h⟩
      · have e : ∀ X, !![1, 0; 0, -1] * W = X → W = !![1, 0; 0, -1] * X := by
          rintro X rfl
          rw [← Matrix.mul_assoc, Matrix.mul_fin_two]
          have : (!![1 * 1 + 0 * 0, 1 * 0 + 0 * -1; 0 * 1 + -1 * 0, 0 * 0 + -1 * -1] : Matrix (Fin 2) (Fin 2) ℝ) = 1 := by
            rw [Matrix.one_fin_two]; norm_num
          rw [this, Matrix.one_mul]
        rcases h with h | h | h | h
        · exact ⟨1, -1, .inl rfl, .inr rfl, .inl (by rw [e _ h, Matrix.mul_fin_two]; norm_num)⟩
        · exact ⟨-1, -1, .inr rfl, .inr rfl, .inr (by rw [e _ h, Matrix.mul_fin_two]; norm_num)⟩
        · exact ⟨-1, 1, .inr rfl, .inl rfl, .inl (by rw [e _ h, Matrix.mul_fin_two]; norm_num)⟩
        · exact ⟨1, 1, .inl rfl, .inl rfl, .inr (by rw [e _ h, Matrix.mul_fin_two]; norm_num)⟩
    obtain ⟨p, q, hp, hq, hW⟩ := this
    constructor
    · unfold Orth
      rcases hW with rfl | rfl <;> rcases hp with rfl | rfl <;> rcases hq with rfl | rfl <;>
        (ext i j; fin_cases i <;> fin_cases j <;> simp [Matrix.mul_apply, Fin.sum_univ_two])
    · intro v hv i
      have h0 := hv 0
      have h1 := hv 1
      rw [mulVec_two]
      rcases hW with rfl | rfl <;> rcases hp with rfl | rfl <;> rcases hq with rfl | rfl <;> rcases h0 with h0 | h0 <;>
        rcases h1 with h1 | h1 <;> fin_cases i <;> simp [h0, h1]
  · rintro ⟨ho, hv⟩
    have v1 := hv ![1, 1] (by intro i; fin_cases i <;> simp)
    have v2 := hv ![1, -1] (by intro i; fin_cases i <;> simp)
    simp only [mulVec_two, Matrix.cons_val_zero, Matrix.cons_val_one, mul_neg, mul_one, ← sub_eq_add_neg] at v1 v2
    have r0 := two_signs _ _ _ (v1 0) (v2 0)
    have r1 := two_signs _ _ _ (v1 1) (v2 1)
    have hc := congrFun (congrFun ho 0) 0
    have hc' := congrFun (congrFun ho 1) 1
    simp only [Matrix.mul_apply, Matrix.transpose_apply, Fin.sum_univ_two, Matrix.one_apply_eq] at hc hc'
    rcases r0 with ⟨p | p, q⟩ | ⟨p, q | q⟩ <;> rcases r1 with ⟨p' | p', q'⟩ | ⟨p', q' | q'⟩ <;>
      (try (exfalso; rw [p, p'] at hc; norm_num at hc; done)) <;> rw [mat_two W, p, q, p', q'] <;> norm_num [Matrix.mul_fin_two]

theorem double_arg (x y : ℝ) (h : x ≠ 0 ∨ y ≠ 0) :
    Real.cos (arctan2 y x * 2) = (x * x - y * y) / (x * x + y * y) ∧ Real.sin (arctan2 y x * 2) = 2 * x * y / (x * x + y * y) := by
  have hc := Complex.norm_mul_cos_arg ⟨x, y⟩
  have hs := Complex.norm_mul_sin_arg ⟨x, y⟩
  simp only at hc hs
  have hr : ‖(⟨x, y⟩ : ℂ)‖ * ‖(⟨x, y⟩ : ℂ)‖ = x * x + y * y := by
    rw [Complex.norm_mul_self_eq_normSq, Complex.normSq_mk]
  have hp : 0 < x * x + y * y := by
    rcases h with h | h
    · have := mul_self_pos.2 h; have := mul_self_nonneg y; linarith
    · have := mul_self_pos.2 h; have := mul_self_nonneg x; linarith
  unfold arctan2
  set t := Complex.arg ⟨x, y⟩
  set r := ‖(⟨x, y⟩ : ℂ)‖
  rw [mul_comm t 2, Real.cos_two_mul', Real.sin_two_mul]
  constructor
  · rw [eq_div_iff hp.ne', ← hr, ← hc, ← hs]; ring
  · rw [eq_div_iff hp.ne', ← hr, ← hc, ← hs]; ring

/-- `glide(trans, origin)` is the mirror image in the line through `origin` along `trans`, followed by the translation by `trans`. -/
theorem C131_glide (trans origin : Fin 2 → ℝ) (ht : trans ≠ 0) :
    ∃ p, glide trans origin = .ok p ∧ Constructed p ∧ ∀ s u : ℝ, p.act (origin + s • trans + u • ![-trans 1, trans 0]) =
      origin + (s + 1) • trans - u • ![-trans 1, trans 0] := by
  have ho := reflMat_orth (arctan2 (trans 1) (trans 0) * 2)
  refine ⟨_, mkPG_ok _ _ ho, ⟨_, _, mkPG_ok _ _ ho⟩, fun s u => ?_⟩
  have hne : trans 0 ≠ 0 ∨ trans 1 ≠ 0 := by
    by_contra hc
    push Not at hc
    exact ht (funext fun i => by fin_cases i <;> simp [hc.1, hc.2])
  obtain ⟨h1, h2⟩ := double_arg _ _ hne
  have hp : trans 0 * trans 0 + trans 1 * trans 1 ≠ 0 := by
    rcases hne with h | h
    · have := mul_self_pos.2 h; have := mul_self_nonneg (trans 1); linarith
    · have := mul_self_pos.2 h; have := mul_self_nonneg (trans 0); linarith
  rw [act_block]
  have e : ∀ i, ((1 - reflMat (arctan2 (trans 1) (trans 0) * 2)) *ᵥ origin) i =
      origin i - (reflMat (arctan2 (trans 1) (trans 0) * 2) *ᵥ origin) i := by
    intro i; rw [Matrix.sub_mulVec, Matrix.one_mulVec]; rfl
  ext i
  simp only [Pi.add_apply, e, mulVec_two, Pi.sub_apply, Pi.smul_apply, smul_eq_mul, reflMat, h1, h2]
  have hp' : trans 0 ^ 2 + trans 1 ^ 2 ≠ 0 := by rw [sq, sq]; exact hp
  fin_cases i <;> simp <;> field_simp <;> ring

/-- the elements of `glide_group` with a unit cell whose translations include twice `trans`: the product table exists.  Otherwise,
    as announced, it raises a RuntimeError. -/
theorem C131_glide_group (trans origin : Fin 2 → ℝ) (ht : trans ≠ 0) :
    ∃ p, glide trans origin = .ok p ∧ glideGroup trans origin = .ok ⟨[.id, .sym p], none⟩ ∧
      ∀ (L : AddSubgroup (Fin 2 → ℝ)) (κ : Type) [DecidableEq κ] (canon : Matrix (Fin 2 ⊕ Unit) (Fin 2 ⊕ Unit) ℝ → κ),
        Faithful canon L →
        ((2 : ℝ) • trans ∈ L → ∃ T, productTable canon [.id, .sym p] = .ok T) ∧
        ((2 : ℝ) • trans ∉ L → productTable canon [.id, .sym p] = .error .runtimeError) := by
  obtain ⟨p, hp, hcon, hact⟩ := C131_glide trans origin ht
  refine ⟨p, hp, by unfold glideGroup pairGroup; rw [hp], ?_⟩
  intro L κ _ canon hc
  have hes : ∀ e ∈ ([.id, .sym p] : List (PGElem ℝ 2)), Good e := by
    intro e he
    simp only [List.mem_cons, List.not_mem_nil, or_false] at he
    rcases he with rfl | rfl
    · trivial
    · exact hcon
  have hne : trans 0 * trans 0 + trans 1 * trans 1 ≠ 0 := by
    intro h0
    apply ht
    have a := mul_self_nonneg (trans 0)
    have b := mul_self_nonneg (trans 1)
    have a' : trans 0 * trans 0 = 0 := by linarith
    have b' : trans 1 * trans 1 = 0 := by linarith
    exact funext fun i => by
      fin_cases i
      · exact mul_self_eq_zero.1 a'
      · exact mul_self_eq_zero.1 b'
  have hp' : trans 0 ^ 2 + trans 1 ^ 2 ≠ 0 := by rw [sq, sq]; exact hne
  have hdec : ∀ x : Fin 2 → ℝ, ∃ s u : ℝ, x = origin + s • trans + u • ![-trans 1, trans 0] := by
    intro x
    refine ⟨((x 0 - origin 0) * trans 0 + (x 1 - origin 1) * trans 1) / (trans 0 * trans 0 + trans 1 * trans 1),
      (-(x 0 - origin 0) * trans 1 + (x 1 - origin 1) * trans 0) / (trans 0 * trans 0 + trans 1 * trans 1), ?_⟩
    ext i
    fin_cases i <;> simp <;> field_simp <;> ring
  have hsq : ∀ x, p.act (p.act x) = x + (2 : ℝ) • trans := by
    intro x
    obtain ⟨s, u, rfl⟩ := hdec x
    have e : origin + (s + 1) • trans - u • ![-trans 1, trans 0] = origin + (s + 1) • trans + (-u) • ![-trans 1, trans 0] := by
      rw [neg_smul, sub_eq_add_neg]
    rw [hact, e, hact]
    ext i
    simp only [Pi.add_apply, Pi.sub_apply, Pi.smul_apply, smul_eq_mul]
    ring
  constructor
  · intro hL
    refine C42_closed hc _ hes ?_ ?_
    · intro e he
      simp only [List.mem_cons, List.not_mem_nil, or_false] at he
      rcases he with rfl | rfl
      · exact ⟨.id, by simp, 0, L.zero_mem, fun x => by simp [PGElem.act]⟩
      · exact ⟨.sym p, by simp, _, hL, fun x => by simp [PGElem.act, hsq]⟩
    · intro a ha b hb
      simp only [List.mem_cons, List.not_mem_nil, or_false] at ha hb
      rcases ha with rfl | rfl <;> rcases hb with rfl | rfl
      · exact ⟨.id, by simp, 0, L.zero_mem, fun x y h => by simpa [PGElem.act] using h⟩
      · exact ⟨.sym p, by simp, 0, L.zero_mem, fun x y h => by simpa [PGElem.act] using h⟩
      · exact ⟨.sym p, by simp, 0, L.zero_mem, fun x y h => by simpa [PGElem.act] using h⟩
      · refine ⟨.id, by simp, _, L.neg_mem hL, fun x y h => ?_⟩
        simp only [PGElem.act, Option.bind_some, Option.some.injEq, hsq] at h
        simp only [PGElem.act, Option.some.injEq]
        rw [← h, add_neg_cancel_right]
  · intro hL
    refine C42_unclosed hc _ hes ⟨.sym p, by simp, .sym p, by simp, ?_⟩
    intro c hc' t htL
    simp only [List.mem_cons, List.not_mem_nil, or_false] at hc'
    have hy : ∀ x, (PGElem.act (.sym p) x).bind (PGElem.act (.sym p)) = some (x + (2 : ℝ) • trans) := by
      intro x; simp only [PGElem.act, Option.bind_some, hsq]
    rcases hc' with rfl | rfl
    · refine ⟨0, _, hy 0, fun h => hL ?_⟩
      simp only [PGElem.act, Option.some.injEq, zero_add] at h
      have : (2 : ℝ) • trans = -t := by rw [eq_neg_iff_add_eq_zero, ← h]
      rw [this]; exact L.neg_mem htL
    · by_contra hall
      push Not at hall
      -- the glide is no translation: compare the images of two points off the axis
      have g : ∀ x, p.act x = x + (2 : ℝ) • trans + t := by
        intro x
        have := hall x _ (hy x)
        simpa only [PGElem.act, Option.some.injEq] using this
      have g0 := g (origin + (0 : ℝ) • trans + (0 : ℝ) • ![-trans 1, trans 0])
      have g1 := g (origin + (0 : ℝ) • trans + (1 : ℝ) • ![-trans 1, trans 0])
      rw [hact] at g0 g1
      apply ht
      have k0 := congrFun g0 0
      have k1 := congrFun g0 1
      have l0 := congrFun g1 0
      have l1 := congrFun g1 1
      simp only [Pi.add_apply, Pi.sub_apply, Pi.smul_apply, smul_eq_mul, Matrix.cons_val_zero, Matrix.cons_val_one] at k0 k1 l0 l1
      ext i
      fin_cases i
      · show trans 0 = 0
        linarith
      · show trans 1 = 0
        linarith

/-! ## Examples -/

/-- the hypotheses of C131_D: the mirror image in the x-axis. -/
example : ∀ r phi, (!![1, 0; 0, -1] : Matrix (Fin 2) (Fin 2) ℝ) *ᵥ ![r * Real.cos (radians phi), r * Real.sin (radians phi)] =
      ![r * Real.cos (radians (2 * 0 - phi)), r * Real.sin (radians (2 * 0 - phi))] := by
  intro r phi
  have e : radians (2 * 0 - phi) = -radians phi := by unfold radians; ring
  rw [e]
  ext i; fin_cases i <;> simp [Matrix.mulVec, dotProduct, Fin.sum_univ_two]

/-- three rotations, among them the one by 120 degrees. -/
example : RotN 3 (rotMat (radians 120)) ∧ rotMat (radians 120) ≠ 1 := by
  have e : radians 120 = 1 * (2 * Real.pi / 3) := by unfold radians; ring
  rw [e]
  have h := enum_C 3 (by decide)
  refine ⟨(h.2 _).1 (List.mem_map.2 ⟨1, by decide, by simp⟩), fun h1 => ?_⟩
  rw [← rotMat_zero] at h1
  obtain ⟨m, hm⟩ := rotMat_inj _ _ h1
  have := angle_distinct 3 1 0 (by decide) (by decide) m (by simpa using hm)
  omega

/-- a rectangle which is no square; a glide along the x-axis. -/
example : (0 : ℝ) < 1 ∧ (0 : ℝ) < 2 ∧ (1 : ℝ) ≠ 2 ∧ (![1, 0] : Fin 2 → ℝ) ≠ 0 := by
  refine ⟨by norm_num, by norm_num, by norm_num, fun h => ?_⟩
  have := congrFun h 0
  simp at this

end Verif.PGrp.Planar
