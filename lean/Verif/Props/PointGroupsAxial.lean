import Verif.Lemmas.PointGroupsAxial

/-! C132: rotations, reflections and the axial point groups of space. -/

set_option linter.unusedSectionVars false

namespace Verif.PGrp.Axial
open Verif.Hilbert (Err)
open Matrix
open Verif.PGrp.Planar (exists_angle angle_reduce angle_distinct range1_eq radians_step rotN_conj implements_congr)

/-! ## Lemmas -/

theorem sum_sq (axis : V3) : (∑ i, axis i * axis i) = axis ⬝ᵥ axis := rfl

theorem dot_pos {axis : V3} (h : axis ≠ 0) : 0 < axis ⬝ᵥ axis := by
  have h0 : 0 ≤ axis ⬝ᵥ axis := by
    rw [← sum_sq]; exact Finset.sum_nonneg fun i _ => mul_self_nonneg _
  rcases h0.lt_or_eq with h1 | h1
  · exact h1
  · exfalso; apply h
    have := (Finset.sum_eq_zero_iff_of_nonneg (s := Finset.univ) (f := fun i => axis i * axis i) fun i _ => mul_self_nonneg _).1 h1.symm
    ext i
    exact mul_self_eq_zero.1 (this i (Finset.mem_univ i))

theorem normalise_ok {axis : V3} (h : axis ≠ 0) :
    ∃ a r, normalise axis = some a ∧ Unit3 a ∧ 0 < r ∧ axis = r • a ∧ r = Real.sqrt (axis ⬝ᵥ axis) := by
  have hp := Real.sqrt_pos.2 (dot_pos h)
  have hs := Real.mul_self_sqrt (dot_pos h).le
  refine ⟨fun i => axis i / Real.sqrt (axis ⬝ᵥ axis), _, ?_, ?_, hp, ?_, rfl⟩
  · unfold normalise
    simp only
    rw [sum_sq, if_neg hp.ne']
  · have e : (fun i => axis i / Real.sqrt (axis ⬝ᵥ axis)) = (Real.sqrt (axis ⬝ᵥ axis))⁻¹ • axis := by
      ext i; simp [div_eq_inv_mul]
    unfold Unit3
    rw [e, smul_dotProduct, dotProduct_smul, smul_eq_mul, smul_eq_mul]
    nth_rewrite 3 [← hs]
    field_simp
  · ext i
    simp only [Pi.smul_apply, smul_eq_mul]
    field_simp

theorem normalise_zero : normalise 0 = none := by
  unfold normalise
  simp

theorem rotAbout_smul (n : Nat) (a : V3) {r : ℝ} (hr : 0 < r) (W : M3) : RotAbout n (r • a) W ↔ RotAbout n a W := by
  unfold RotAbout
  rw [Matrix.mulVec_smul]
  constructor
  · rintro ⟨h1, h2⟩
    exact ⟨h1, smul_right_injective _ hr.ne' h2⟩
  · rintro ⟨h1, h2⟩
    exact ⟨h1, by rw [h2]⟩

/-- a linear map is known from `a` and the vectors normal to it. -/
theorem ext_axis {a : V3} (ha : Unit3 a) (M N : M3) (h1 : M *ᵥ a = N *ᵥ a) (h2 : ∀ x, a ⬝ᵥ x = 0 → M *ᵥ x = N *ᵥ x) : M = N := by
  apply Matrix.ext_of_mulVec_single
  intro i
  have e : (Pi.single i 1 : V3) = (a i) • a + (Pi.single i 1 - (a i) • a) := by abel
  rw [e, Matrix.mulVec_add, Matrix.mulVec_add, Matrix.mulVec_smul, Matrix.mulVec_smul, h1, h2]
  rw [dotProduct_sub, dotProduct_smul, ha, dotProduct_single, smul_eq_mul]
  ring

theorem dot_smul_zero {a x : V3} {r : ℝ} (hr : 0 < r) : (r • a) ⬝ᵥ x = 0 ↔ a ⬝ᵥ x = 0 := by
  rw [smul_dotProduct, smul_eq_mul, mul_eq_zero]
  exact ⟨fun h => h.resolve_left hr.ne', .inr⟩

theorem mirror_iff {a : V3} (ha : Unit3 a) {r : ℝ} (hr : 0 < r) (M : M3) : MirrorOf (r • a) M ↔ M = reflMat a := by
  constructor
  · rintro ⟨h1, h2⟩
    refine ext_axis ha _ _ ?_ fun x hx => ?_
    · rw [Matrix.mulVec_smul, ← smul_neg] at h1
      rw [smul_right_injective _ hr.ne' h1, reflMat_axis ha]
    · rw [h2 x ((dot_smul_zero hr).2 hx), reflMat_mulVec, hx]; simp
  · rintro rfl
    refine ⟨by rw [Matrix.mulVec_smul, reflMat_axis ha, smul_neg], fun x hx => ?_⟩
    rw [reflMat_mulVec, (dot_smul_zero hr).1 hx]; simp

theorem turn_iff {a : V3} (ha : Unit3 a) {r : ℝ} (hr : 0 < r) (hr' : r = Real.sqrt ((r • a) ⬝ᵥ (r • a))) (t : ℝ) (M : M3) :
    TurnAbout t (r • a) M ↔ M = rotMat t a := by
  have hx' : ∀ x, (Real.sin t / r) • crossProduct (r • a) x = Real.sin t • crossProduct a x := by
    intro x
    rw [map_smul, LinearMap.smul_apply, smul_smul, div_mul_cancel₀ _ hr.ne']
  unfold TurnAbout
  rw [← hr']
  constructor
  · rintro ⟨h1, h2⟩
    refine ext_axis ha _ _ ?_ fun x hx => ?_
    · rw [Matrix.mulVec_smul] at h1
      rw [smul_right_injective _ hr.ne' h1, rotMat_axis ha]
    · rw [h2 x ((dot_smul_zero hr).2 hx), hx', rotMat_mulVec, hx]; simp
  · rintro rfl
    refine ⟨by rw [Matrix.mulVec_smul, rotMat_axis ha], fun x hx => ?_⟩
    rw [rotMat_mulVec, (dot_smul_zero hr).1 hx, hx']; simp

theorem withAxis_ok {axis a : V3} (h : normalise axis = some a) (f : V3 → Except Err (PGSym ℝ 3)) : withAxis axis f = f a := by
  unfold withAxis; rw [h]

theorem rotation_ok {axis a : V3} (h : normalise axis = some a) (ha : Unit3 a) (angle : ℝ) :
    rotation angle axis = .ok ⟨block (rotMat (radians angle) a) 0⟩ := by
  unfold rotation; rw [withAxis_ok h, mkPG_none _ (rotMat_orth ha _)]

theorem pre_refl {axis a : V3} (h : normalise axis = some a) (ha : Unit3 a) : Pre (reflectionGroup axis) [1, reflMat a] := by
  unfold reflectionGroup reflection; rw [withAxis_ok h]; exact pre_pair _ (reflMat_orth ha)

theorem pre_C (n : Nat) (hn : 0 < n) {axis a : V3} (h : normalise axis = some a) (ha : Unit3 a) :
    Pre (C (n : ℤ) axis) ((List.range n).map fun i : Nat => rotMat ((i : ℝ) * (2 * Real.pi / (n : ℝ))) a) := by
  have h := pre_idAnd (fun i : Nat => symElem (rotation (360 / ((n : ℤ) : ℝ) * (i : ℝ)) axis)) (range1 (n : ℤ))
    (fun i : Nat => rotMat ((i : ℝ) * (2 * Real.pi / (n : ℝ))) a)
    (by intro i _; rw [rotation_ok h ha, radians_step]; rfl) (fun i _ => rotMat_orth ha _)
  rwa [range1_eq n hn _ (by simp [rotMat_zero])] at h

theorem refl_not_proper {a : V3} (ha : Unit3 a) (n : Nat) : ¬RotN n (reflMat a) := by
  intro h
  have := h.2.1
  rw [reflMat_det ha] at this
  norm_num at this

/-- a group with the mirror images of its elements. -/
theorem implements_mirror (r : Except Err (PG 3)) (P : M3 → Prop) (k : Nat) (Ws : List M3) (M : M3) (q : Except Err (PG 3))
    (hq : Pre q [1, M]) (hr : Pre r Ws) (he : Enum Ws P) (hP : IsGrp P) (hk : Ws.length = k) (hM : Mᵀ * M = 1) (hn : ¬P M)
    (hsq : P (M * M)) (hconj : ∀ W, P W → P (Mᵀ * W * M)) : Implements (prodOf q r) (WithCoset M P) (2 * k) :=
  implements_of _ _ _ _ (pre_prod _ _ _ _ hq hr) (enum_coset hP _ hM hn _ he) (isGrp_coset hP _ hM hsq hconj)
    (by rw [length_coset, hk])

/-! ## C132 -/

/-- `rotation(angle, axis)` is the right-handed rotation by `angle` degrees around `axis`. -/
theorem C132_rotation (angle : ℝ) (axis : V3) (h : axis ≠ 0) (R : M3) (hR : TurnAbout (radians angle) axis R) :
    ∃ p, rotation angle axis = .ok p ∧ ∀ x, p.act x = R *ᵥ x := by
  obtain ⟨a, r, h1, h2, h3, rfl, h5⟩ := normalise_ok h
  rw [turn_iff h2 h3 h5] at hR
  subst hR
  exact ⟨_, rotation_ok h1 h2 angle, fun x => by rw [act_block, add_zero]⟩

/-- `reflection(axis)` is the mirror image in the plane through the origin normal to `axis`. -/
theorem C132_reflection (axis : V3) (h : axis ≠ 0) (M : M3) (hM : MirrorOf axis M) :
    ∃ p, reflection axis = .ok p ∧ ∀ x, p.act x = M *ᵥ x := by
  obtain ⟨a, r, h1, h2, h3, rfl, h5⟩ := normalise_ok h
  rw [mirror_iff h2 h3] at hM
  subst hM
  refine ⟨⟨block (reflMat a) 0⟩, ?_, fun x => ?_⟩
  · unfold reflection; rw [withAxis_ok h1, mkPG_none _ (reflMat_orth h2)]
  · rw [act_block, add_zero]

/-- `inversion()` reverses all vectors; `inversion_group()` has it and the identity. -/
theorem C132_inversion :
    (∃ p, inversion = .ok p ∧ ∀ x, p.act x = -x) ∧ Implements inversionGroup (fun W => W = 1 ∨ W = -1) 2 := by
  have ho : (-1 : M3)ᵀ * (-1 : M3) = 1 := by simp
  constructor
  · exact ⟨_, mkPG_none _ ho, fun x => by rw [act_block, add_zero, Matrix.neg_mulVec, Matrix.one_mulVec]⟩
  · refine implements_of _ _ _ _ (pre_pair _ ho) ⟨?_, ?_⟩ ⟨?_, .inl rfl, ?_, ?_⟩ rfl
    · have : (1 : M3) ≠ -1 := by
        intro h
        have := congrFun (congrFun h 0) 0
        simp at this
        norm_num at this
      simpa using this
    · intro W; simp
    · rintro W (rfl | rfl) <;> simp
    · rintro W V (rfl | rfl) (rfl | rfl) <;> simp
    · rintro W (rfl | rfl) <;> simp

/-- `rotoreflection(angle, axis)` is the rotation followed by the mirror image in the plane normal to the axis. -/
theorem C132_rotoreflection (angle : ℝ) (axis : V3) (h : axis ≠ 0) (R M : M3) (hR : TurnAbout (radians angle) axis R)
    (hM : MirrorOf axis M) : ∃ p, rotoreflection angle axis = .ok p ∧ ∀ x, p.act x = M *ᵥ (R *ᵥ x) := by
  obtain ⟨a, r, h1, h2, h3, rfl, h5⟩ := normalise_ok h
  rw [turn_iff h2 h3 h5] at hR
  rw [mirror_iff h2 h3] at hM
  subst hR hM
  refine ⟨⟨block (reflMat a * rotMat (radians angle) a) 0⟩, ?_, fun x => ?_⟩
  · unfold rotoreflection; rw [withAxis_ok h1, mkPG_none _ (ortho_mul (reflMat_orth h2) (rotMat_orth h2 _))]
  · rw [act_block, add_zero, Matrix.mulVec_mulVec]

/-- a zero axis is rejected with a ValueError. -/
theorem C132_zero_axis (angle : ℝ) :
    rotation angle 0 = .error .valueError ∧ reflection 0 = .error .valueError ∧ rotoreflection angle 0 = .error .valueError ∧
      ∀ origin, screw angle 0 origin = .error .valueError := by
  have h : ∀ f, withAxis 0 f = .error .valueError := fun f => by unfold withAxis; rw [normalise_zero]
  exact ⟨h _, h _, h _, fun _ => h _⟩

/-- `C(n, axis)` consists of the `n` rotations around the axis whose `n`-th power is the identity. -/
theorem C132_C (n : Nat) (hn : 0 < n) (axis : V3) (h : axis ≠ 0) : Implements (C (n : ℤ) axis) (RotAbout n axis) n := by
  obtain ⟨a, r, h1, h2, h3, h4, h5⟩ := normalise_ok h
  refine implements_congr (fun W => ?_) (implements_of _ _ _ _ (pre_C n hn h1 h2) (enum_C n hn h2) (isGrp_C n h2) (by simp))
  rw [h4, rotAbout_smul n a h3]

/-- element `i` of `C(n, axis)` is the right-handed rotation by `360 i / n` degrees. -/
theorem C132_C_elements (n : Nat) (hn : 0 < n) (axis : V3) (h : axis ≠ 0) (i : Nat) (hi : i < n) (R : M3)
    (hR : TurnAbout (radians (360 * i / n)) axis R) :
    ∃ G e, C (n : ℤ) axis = .ok G ∧ G.elems[i]? = some e ∧ ∀ x, e.act x = some (R *ᵥ x) := by
  obtain ⟨a, r, h1, h2, h3, h4, h5⟩ := normalise_ok h
  rw [h4] at h5 hR
  rw [turn_iff h2 h3 h5] at hR
  obtain ⟨es, k1, k2⟩ := pre_C n hn h1 h2
  have hlen : i < (PGElem.id :: es).length := by rw [k2.length_eq]; simpa using hi
  refine ⟨_, _, k1, List.getElem?_eq_getElem hlen, fun x => ?_⟩
  have h3 := List.Forall₂.get k2 hlen (by simpa using hi)
  simp only [List.get_eq_getElem, List.getElem_map, List.getElem_range] at h3
  rw [h3.2, hR]
  have e : radians (360 * i / n) = (i : ℝ) * (2 * Real.pi / (n : ℝ)) := by unfold radians; ring
  rw [e]

/-- `Ch(n, axis)` adds the mirror images in the plane normal to the axis. -/
theorem C132_Ch (n : Nat) (hn : 0 < n) (axis : V3) (h : axis ≠ 0) (M : M3) (hM : MirrorOf axis M) :
    Implements (Ch (n : ℤ) axis) (WithCoset M (RotAbout n axis)) (2 * n) := by
  obtain ⟨a, r, h1, h2, h3, h4, h5⟩ := normalise_ok h
  have e : RotAbout n axis = RotAbout n a := funext fun W => propext (by rw [h4, rotAbout_smul n a h3])
  rw [h4, mirror_iff h2 h3] at hM
  subst hM
  rw [e]
  exact implements_mirror _ _ _ _ _ _ (pre_refl h1 h2) (pre_C n hn h1 h2) (enum_C n hn h2) (isGrp_C n h2) (by simp) (reflMat_orth h2)
    (fun hh => refl_not_proper h2 n hh.1) (by rw [reflMat_sq h2]; exact (isGrp_C n h2).one)
    (conj_C n _ (reflMat_orth h2) (.inr (reflMat_axis h2)))

theorem perp_of {axis axis2 : V3} (h : axis ⬝ᵥ axis2 = 0) : perp axis axis2 := by
  have : (∑ i, axis i * axis2 i) = 0 := h
  unfold perp
  rw [this]
  norm_num

theorem asserting_ok {α : Type} {p : Prop} (h : p) (r : Except Err α) : asserting p r = r := by unfold asserting; rw [if_pos h]

theorem dot_of_smul {a b : V3} {r s : ℝ} (hr : 0 < r) (hs : 0 < s) (h : (r • a) ⬝ᵥ (s • b) = 0) : a ⬝ᵥ b = 0 := by
  rw [dot_smul_zero hr, dotProduct_smul, smul_eq_mul, mul_eq_zero] at h
  exact h.resolve_left hs.ne'

/-- `Cv(n, axis, axis2)` adds the mirror images in the plane normal to `axis2`, which is perpendicular to `axis`. -/
theorem C132_Cv (n : Nat) (hn : 0 < n) (axis axis2 : V3) (h : axis ≠ 0) (h' : axis2 ≠ 0) (hp : axis ⬝ᵥ axis2 = 0) (M : M3)
    (hM : MirrorOf axis2 M) : Implements (Cv (n : ℤ) axis axis2) (WithCoset M (RotAbout n axis)) (2 * n) := by
  unfold Cv
  rw [asserting_ok (perp_of hp)]
  obtain ⟨a, r, h1, h2, h3, h4, h5⟩ := normalise_ok h
  obtain ⟨b, s, k1, k2, k3, k4, k5⟩ := normalise_ok h'
  have e : RotAbout n axis = RotAbout n a := funext fun W => propext (by rw [h4, rotAbout_smul n a h3])
  have hab : a ⬝ᵥ b = 0 := dot_of_smul h3 k3 (by rw [← h4, ← k4]; exact hp)
  rw [k4, mirror_iff k2 k3] at hM
  subst hM
  rw [e]
  refine implements_mirror _ _ _ _ _ _ (pre_refl k1 k2) (pre_C n hn h1 h2) (enum_C n hn h2) (isGrp_C n h2) (by simp) (reflMat_orth k2)
    (fun hh => refl_not_proper k2 n hh.1) (by rw [reflMat_sq k2]; exact (isGrp_C n h2).one)
    (conj_C n _ (reflMat_orth k2) (.inl ?_))
  rw [reflMat_mulVec, dotProduct_comm, hab]; simp

theorem halfTurn_perp {a b : V3} (hab : a ⬝ᵥ b = 0) : rotMat Real.pi b *ᵥ a = -a := by
  have : rotMat Real.pi b = -reflMat b := by rw [reflMat_eq, neg_neg]
  rw [this, Matrix.neg_mulVec, reflMat_mulVec, dotProduct_comm, hab]; simp

theorem pre_C2 {axis a : V3} (h : normalise axis = some a) (ha : Unit3 a) : Pre (C 2 axis) [1, rotMat Real.pi a] := by
  have := pre_C 2 (by decide) h ha
  have e : (1 : ℝ) * (2 * Real.pi / 2) = Real.pi := by ring
  simpa [List.range, List.range.loop, rotMat_zero] using this

theorem rot_not_fix {a b : V3} (ha : Unit3 a) (hab : a ⬝ᵥ b = 0) (n : Nat) : ¬RotAbout n a (rotMat Real.pi b) := by
  intro h
  have h1 := h.2
  rw [halfTurn_perp hab] at h1
  have : a = 0 := by
    ext i
    have := congrFun h1 i
    simp only [Pi.neg_apply] at this
    show a i = 0
    linarith
  rw [Unit3, this] at ha
  simp at ha

theorem pi_sq {b : V3} (hb : Unit3 b) : rotMat Real.pi b * rotMat Real.pi b = 1 := by
  rw [rotMat_mul hb, rotMat_eq_one hb]
  exact ⟨1, by push_cast; ring⟩

theorem isGrp_D (n : Nat) {a b : V3} (ha : Unit3 a) (hb : Unit3 b) (hab : a ⬝ᵥ b = 0) :
    IsGrp (WithCoset (rotMat Real.pi b) (RotAbout n a)) :=
  isGrp_coset (isGrp_C n ha) _ (rotMat_orth hb _) (by rw [pi_sq hb]; exact (isGrp_C n ha).one)
    (conj_C n _ (rotMat_orth hb _) (.inr (halfTurn_perp hab)))

/-- `D(n, axis, axis2)` adds the rotations of `C(n, axis)` followed by the half turn around `axis2`, which is perpendicular to `axis`. -/
theorem C132_D (n : Nat) (hn : 0 < n) (axis axis2 : V3) (h : axis ≠ 0) (h' : axis2 ≠ 0) (hp : axis ⬝ᵥ axis2 = 0) (R : M3)
    (hR : TurnAbout Real.pi axis2 R) : Implements (D (n : ℤ) axis axis2) (WithCoset R (RotAbout n axis)) (2 * n) := by
  unfold D
  rw [asserting_ok (perp_of hp)]
  obtain ⟨a, r, h1, h2, h3, h4, h5⟩ := normalise_ok h
  obtain ⟨b, s, k1, k2, k3, k4, k5⟩ := normalise_ok h'
  have e : RotAbout n axis = RotAbout n a := funext fun W => propext (by rw [h4, rotAbout_smul n a h3])
  have hab : a ⬝ᵥ b = 0 := dot_of_smul h3 k3 (by rw [← h4, ← k4]; exact hp)
  rw [k4] at k5 hR
  rw [turn_iff k2 k3 k5] at hR
  subst hR
  rw [e]
  exact implements_mirror _ _ _ _ _ _ (pre_C2 k1 k2) (pre_C n hn h1 h2) (enum_C n hn h2) (isGrp_C n h2) (by simp) (rotMat_orth k2 _)
    (rot_not_fix h2 hab n) (by rw [pi_sq k2]; exact (isGrp_C n h2).one)
    (conj_C n _ (rotMat_orth k2 _) (.inr (halfTurn_perp hab)))

theorem pre_D (n : Nat) (hn : 0 < n) {axis axis2 a b : V3} (hp : axis ⬝ᵥ axis2 = 0) (h1 : normalise axis = some a) (h2 : Unit3 a)
    (k1 : normalise axis2 = some b) (k2 : Unit3 b) :
    Pre (D (n : ℤ) axis axis2) ([1, rotMat Real.pi b].flatMap fun W =>
      ((List.range n).map fun i : Nat => rotMat ((i : ℝ) * (2 * Real.pi / (n : ℝ))) a).map fun V => W * V) := by
  unfold D
  rw [asserting_ok (perp_of hp)]
  exact pre_prod _ _ _ _ (pre_C2 k1 k2) (pre_C n hn h1 h2)

theorem refl_outer_comm {a b : V3} (hab : a ⬝ᵥ b = 0) : reflMat a * rotMat Real.pi b = rotMat Real.pi b * reflMat a := by
  have e : rotMat Real.pi b = -reflMat b := by rw [reflMat_eq, neg_neg]
  rw [e, Matrix.mul_neg, Matrix.neg_mul]
  congr 1
  unfold reflMat
  simp only [Matrix.sub_mul, Matrix.mul_sub, Matrix.smul_mul, Matrix.mul_smul, Matrix.one_mul, Matrix.mul_one,
    Matrix.vecMulVec_mul_vecMulVec, hab, dotProduct_comm b a]
  ext i j
  simp
  ring

theorem conj_Dh (n : Nat) {a b : V3} (ha : Unit3 a) (hab : a ⬝ᵥ b = 0) (W : M3)
    (h : WithCoset (rotMat Real.pi b) (RotAbout n a) W) :
    WithCoset (rotMat Real.pi b) (RotAbout n a) ((reflMat a)ᵀ * W * reflMat a) := by
  have hconj := conj_C n (a := a) _ (reflMat_orth ha) (.inr (reflMat_axis ha))
  rcases h with h | ⟨V, hV, rfl⟩
  · exact .inl (hconj W h)
  · refine .inr ⟨_, hconj V hV, ?_⟩
    rw [reflMat_tr]
    calc reflMat a * (rotMat Real.pi b * V) * reflMat a = (reflMat a * rotMat Real.pi b) * V * reflMat a := by simp only [Matrix.mul_assoc]
      _ = _ := by rw [refl_outer_comm hab]; simp only [Matrix.mul_assoc]

theorem not_D_refl (n : Nat) {a b : V3} (ha : Unit3 a) (hb : Unit3 b) : ¬WithCoset (rotMat Real.pi b) (RotAbout n a) (reflMat a) := by
  have hd := reflMat_det ha
  rintro (h | ⟨V, hV, hW⟩)
  · exact refl_not_proper ha n h.1
  · rw [hW, Matrix.det_mul, rotMat_det hb, hV.1.2.1] at hd
    norm_num at hd

/-- `Dh(n, axis, axis2)` adds the mirror images of `D(n, axis, axis2)` in the plane normal to `axis`: `4 n` elements. -/
theorem C132_Dh (n : Nat) (hn : 0 < n) (axis axis2 : V3) (h : axis ≠ 0) (h' : axis2 ≠ 0) (hp : axis ⬝ᵥ axis2 = 0) (R M : M3)
    (hR : TurnAbout Real.pi axis2 R) (hM : MirrorOf axis M) :
    Implements (Dh (n : ℤ) axis axis2) (WithCoset M (WithCoset R (RotAbout n axis))) (4 * n) := by
  obtain ⟨a, r, h1, h2, h3, h4, h5⟩ := normalise_ok h
  obtain ⟨b, s, k1, k2, k3, k4, k5⟩ := normalise_ok h'
  have e : RotAbout n axis = RotAbout n a := funext fun W => propext (by rw [h4, rotAbout_smul n a h3])
  have hab : a ⬝ᵥ b = 0 := dot_of_smul h3 k3 (by rw [← h4, ← k4]; exact hp)
  rw [k4] at k5 hR
  rw [turn_iff k2 k3 k5] at hR
  rw [h4, mirror_iff h2 h3] at hM
  subst hR hM
  rw [e]
  have := implements_mirror _ _ _ _ _ _ (pre_refl h1 h2) (pre_D n hn hp h1 h2 k1 k2)
    (enum_coset (isGrp_C n h2) _ (rotMat_orth k2 _) (rot_not_fix h2 hab n) _ (enum_C n hn h2)) (isGrp_D n h2 k2 hab)
    (by rw [length_coset]) (reflMat_orth h2) (not_D_refl n h2 k2) (by rw [reflMat_sq h2]; exact (isGrp_D n h2 k2 hab).one)
    (conj_Dh n h2 hab)
  have e4 : 2 * (2 * ((List.range n).map fun i : Nat => rotMat ((i : ℝ) * (2 * Real.pi / (n : ℝ))) a).length) = 4 * n := by
    simp; omega
  rw [e4] at this
  exact this

/-! ### Rotoreflections -/

/-- the rotoreflection by a `2 m`-th of a full turn. -/
noncomputable def sGen (m : Nat) (a : V3) : M3 := reflMat a * rotMat (2 * Real.pi / ((2 * m : ℕ) : ℝ)) a

theorem sGen_orth (m : Nat) {a : V3} (ha : Unit3 a) : (sGen m a)ᵀ * sGen m a = 1 := ortho_mul (reflMat_orth ha) (rotMat_orth ha _)

theorem sGen_sq (m : Nat) {a : V3} (ha : Unit3 a) : sGen m a * sGen m a = rotMat (2 * (2 * Real.pi / ((2 * m : ℕ) : ℝ))) a := by
  unfold sGen
  rw [refl_rot_comm]
  calc rotMat (2 * Real.pi / ((2 * m : ℕ) : ℝ)) a * reflMat a * (rotMat (2 * Real.pi / ((2 * m : ℕ) : ℝ)) a * reflMat a)
      = rotMat (2 * Real.pi / ((2 * m : ℕ) : ℝ)) a * (reflMat a * rotMat (2 * Real.pi / ((2 * m : ℕ) : ℝ)) a) * reflMat a := by
        simp only [Matrix.mul_assoc]
    _ = rotMat (2 * Real.pi / ((2 * m : ℕ) : ℝ)) a * rotMat (2 * Real.pi / ((2 * m : ℕ) : ℝ)) a * (reflMat a * reflMat a) := by
        rw [refl_rot_comm]; simp only [Matrix.mul_assoc]
    _ = _ := by rw [reflMat_sq ha, Matrix.mul_one, rotMat_mul ha]; congr 1; ring

theorem sGen_axis (m : Nat) {a : V3} (ha : Unit3 a) : sGen m a *ᵥ a = -a := by
  unfold sGen; rw [← Matrix.mulVec_mulVec, rotMat_axis ha, reflMat_axis ha]

theorem step_mem (m : Nat) (hm : 0 < m) {a : V3} (ha : Unit3 a) (k : ℤ) :
    RotAbout m a (rotMat (k * (2 * (2 * Real.pi / ((2 * m : ℕ) : ℝ)))) a) := by
  have hm' : (m : ℝ) ≠ 0 := by positivity
  refine ⟨⟨rotMat_orth ha _, rotMat_det ha _, ?_⟩, rotMat_axis ha _⟩
  rw [rotMat_pow ha, rotMat_eq_one ha]
  exact ⟨k, by push_cast; field_simp⟩

theorem sq_mem (m : Nat) (hm : 0 < m) {a : V3} (ha : Unit3 a) : RotAbout m a (sGen m a * sGen m a) := by
  rw [sGen_sq m ha]
  have := step_mem m hm ha 1
  simpa using this

theorem isGrp_S (m : Nat) (hm : 0 < m) {a : V3} (ha : Unit3 a) : IsGrp (WithCoset (sGen m a) (RotAbout m a)) :=
  isGrp_coset (isGrp_C m ha) _ (sGen_orth m ha) (sq_mem m hm ha) (conj_C m _ (sGen_orth m ha) (.inr (sGen_axis m ha)))

/-- element `i` of `S(2 m)`. -/
noncomputable def sElem (m : Nat) (a : V3) (i : Nat) : M3 :=
  if i % 2 = 1 then reflMat a * rotMat ((i : ℝ) * (2 * Real.pi / ((2 * m : ℕ) : ℝ))) a
  else rotMat ((i : ℝ) * (2 * Real.pi / ((2 * m : ℕ) : ℝ))) a

theorem sElem_eq (m : Nat) {a : V3} (ha : Unit3 a) (i : Nat) : sElem m a i = sGen m a ^ i := by
  have h2 : ∀ j : Nat, sGen m a ^ (2 * j) = rotMat (((2 * j : ℕ) : ℝ) * (2 * Real.pi / ((2 * m : ℕ) : ℝ))) a := by
    intro j
    rw [pow_mul, pow_two, sGen_sq m ha, rotMat_pow ha]
    congr 1; push_cast; ring
  rcases Nat.even_or_odd' i with ⟨j, rfl | rfl⟩
  · unfold sElem
    rw [if_neg (by omega), h2]
  · unfold sElem
    rw [if_pos (by omega), pow_succ, h2, sGen, ← Matrix.mul_assoc, ← refl_rot_comm, Matrix.mul_assoc, rotMat_mul ha]
    congr 2; push_cast; ring

theorem pre_S (m : Nat) (hm : 0 < m) {axis a : V3} (h : normalise axis = some a) (ha : Unit3 a) :
    Pre (S ((2 * m : ℕ) : ℤ) axis) ((List.range (2 * m)).map fun i : Nat => sGen m a ^ i) := by
  have h := pre_idAnd (Selem ((2 * m : ℕ) : ℤ) axis) (range1 ((2 * m : ℕ) : ℤ)) (fun i : Nat => sGen m a ^ i)
    (by
      intro i _
      rw [← sElem_eq m ha]
      unfold Selem sElem
      split
      · unfold rotoreflection
        rw [withAxis_ok h, radians_step, mkPG_none _ (ortho_mul (reflMat_orth ha) (rotMat_orth ha _))]
        rfl
      · rw [rotation_ok h ha, radians_step]; rfl)
    (by
      intro i _
      rw [← sElem_eq m ha]
      unfold sElem
      split
      · exact ortho_mul (reflMat_orth ha) (rotMat_orth ha _)
      · exact rotMat_orth ha _)
  rw [range1_eq (2 * m) (by omega) _ (by simp)] at h
  unfold S
  rwa [if_neg (by omega)]

theorem enum_S (m : Nat) (hm : 0 < m) {a : V3} (ha : Unit3 a) :
    Enum ((List.range (2 * m)).map fun i : Nat => sGen m a ^ i) (WithCoset (sGen m a) (RotAbout m a)) := by
  have hdet : (sGen m a).det = -1 := by unfold sGen; rw [Matrix.det_mul, reflMat_det ha, rotMat_det ha]; ring
  have hn : ∀ j : Nat, sGen m a ^ (2 * j) = rotMat ((j : ℝ) * (2 * Real.pi / (m : ℝ))) a := by
    intro j
    rw [pow_mul, pow_two, sGen_sq m ha, rotMat_pow ha]
    congr 1; push_cast; field_simp
  have hE := enum_C m hm ha
  have hcancel : ∀ V V', sGen m a * V = sGen m a * V' → V = V' := by
    intro V V' h
    have := congrArg (fun X => (sGen m a)ᵀ * X) h
    simpa only [← Matrix.mul_assoc, sGen_orth m ha, Matrix.one_mul] using this
  have inj2 : ∀ j < m, ∀ k < m, sGen m a ^ (2 * j) = sGen m a ^ (2 * k) → j = k := by
    intro j hj k hk h
    rw [hn, hn] at h
    obtain ⟨l, hl⟩ := rotMat_inj ha _ _ h
    exact angle_distinct m j k hj hk l hl
  constructor
  · refine List.Nodup.map_on ?_ List.nodup_range
    intro i hi j hj h
    have hi := List.mem_range.1 hi
    have hj := List.mem_range.1 hj
    have hd := congrArg Matrix.det h
    rw [Matrix.det_pow, Matrix.det_pow, hdet] at hd
    rcases Nat.even_or_odd' i with ⟨i', rfl | rfl⟩ <;> rcases Nat.even_or_odd' j with ⟨j', rfl | rfl⟩
    · rw [inj2 i' (by omega) j' (by omega) h]
    · rw [pow_succ, pow_mul, pow_mul] at hd; norm_num at hd
    · rw [pow_succ, pow_mul, pow_mul] at hd; norm_num at hd
    · rw [pow_succ', pow_succ'] at h
      rw [inj2 i' (by omega) j' (by omega) (hcancel _ _ h)]
  · intro W
    rw [List.mem_map]
    unfold WithCoset
    rw [← hE.2, List.mem_map]
    constructor
    · rintro ⟨i, hi, rfl⟩
      have hi := List.mem_range.1 hi
      rcases Nat.even_or_odd' i with ⟨i', rfl | rfl⟩
      · exact .inl ⟨i', List.mem_range.2 (by omega), (hn i').symm⟩
      · exact .inr ⟨_, (hE.2 _).1 (List.mem_map.2 ⟨i', List.mem_range.2 (by omega), rfl⟩), by rw [← hn, pow_succ']⟩
    · rintro (⟨i, hi, rfl⟩ | ⟨V, hV, rfl⟩)
      · exact ⟨2 * i, List.mem_range.2 (by have := List.mem_range.1 hi; omega), hn i⟩
      · obtain ⟨i, hi, rfl⟩ := List.mem_map.1 ((hE.2 V).2 hV)
        exact ⟨2 * i + 1, List.mem_range.2 (by have := List.mem_range.1 hi; omega), by rw [pow_succ', hn]⟩

/-- `S(n, axis)` for even `n` consists of the `n` powers of the rotation by `360/n` degrees followed by the mirror image in the plane
    normal to the axis: half of them are the rotations of `C(n/2, axis)`.  Element `i` is the power `i`. -/
theorem C132_S (m : Nat) (hm : 0 < m) (axis : V3) (h : axis ≠ 0) (R M : M3)
    (hR : TurnAbout (2 * Real.pi / ((2 * m : ℕ) : ℝ)) axis R) (hM : MirrorOf axis M) :
    Implements (S ((2 * m : ℕ) : ℤ) axis) (WithCoset (M * R) (RotAbout m axis)) (2 * m) ∧
      ∃ G, S ((2 * m : ℕ) : ℤ) axis = .ok G ∧ ActsAs G.elems ((List.range (2 * m)).map fun i : Nat => (M * R) ^ i) := by
  obtain ⟨a, r, h1, h2, h3, h4, h5⟩ := normalise_ok h
  have e : RotAbout m axis = RotAbout m a := funext fun W => propext (by rw [h4, rotAbout_smul m a h3])
  rw [h4] at h5 hR hM
  rw [turn_iff h2 h3 h5] at hR
  rw [mirror_iff h2 h3] at hM
  subst hR hM
  rw [e]
  refine ⟨implements_of _ _ _ _ (pre_S m hm h1 h2) (enum_S m hm h2) (isGrp_S m hm h2) (by simp), ?_⟩
  obtain ⟨es, k1, k2⟩ := pre_S m hm h1 h2
  exact ⟨_, k1, (actsAs_iff _ _).2 k2⟩

/-- for odd `n` the group is `Ch(n, axis)`. -/
theorem C132_S_odd (n : ℤ) (hn : n % 2 = 1) (axis : V3) : S n axis = Ch n axis := by
  unfold S; rw [if_pos hn]

example := C132_S_odd 3 (by decide) ![0, 0, 1]

theorem refl_conj_rot {a b : V3} (hb : Unit3 b) (hab : a ⬝ᵥ b = 0) (t : ℝ) : reflMat b * rotMat t a * reflMat b = rotMat (-t) a := by
  have hK : reflMat b * crossEye a * reflMat b = -crossEye a := by
    have h' := unit_sum hb
    have h0 : a 0 * b 0 + a 1 * b 1 + a 2 * b 2 = 0 := by simpa [dotProduct, Fin.sum_univ_three] using hab
    unfold reflMat
    rw [crossEye_eq]
    ext i j
    fin_cases i <;> fin_cases j <;>
      simp [Matrix.mul_apply, Fin.sum_univ_three, vecMulVec_apply, Matrix.one_apply, Matrix.sub_apply]
    · ring
    · linear_combination (2 * a 2) * h' - 2 * b 2 * h0
    · linear_combination (-2 * a 1) * h' + 2 * b 1 * h0
    · linear_combination (-2 * a 2) * h' + 2 * b 2 * h0
    · ring
    · linear_combination (2 * a 0) * h' - 2 * b 0 * h0
    · linear_combination (2 * a 1) * h' - 2 * b 1 * h0
    · linear_combination (-2 * a 0) * h' + 2 * b 0 * h0
    · ring
  have hP : reflMat b * vecMulVec a a * reflMat b = vecMulVec a a := by
    unfold reflMat
    simp only [Matrix.sub_mul, Matrix.mul_sub, Matrix.smul_mul, Matrix.mul_smul, Matrix.one_mul, Matrix.mul_one,
      Matrix.vecMulVec_mul_vecMulVec, hab, dotProduct_comm b a]
    simp
  unfold rotMat
  rw [Matrix.mul_add, Matrix.mul_add, Matrix.add_mul, Matrix.add_mul, Matrix.mul_smul, Matrix.smul_mul, Matrix.mul_smul, Matrix.smul_mul,
    Matrix.mul_smul, Matrix.smul_mul, hK, hP, Matrix.mul_one, reflMat_sq hb, Real.cos_neg, Real.sin_neg, smul_neg, neg_smul]

theorem refl_refl_comm {a b : V3} (hab : a ⬝ᵥ b = 0) : reflMat a * reflMat b = reflMat b * reflMat a := by
  have := refl_outer_comm hab
  have e : rotMat Real.pi b = -reflMat b := by rw [reflMat_eq, neg_neg]
  rw [e, Matrix.mul_neg, Matrix.neg_mul, neg_inj] at this
  exact this

/-- the mirror image of the generator of the rotoreflections, compared with the generator. -/
theorem sGen_conj (m : Nat) {a b : V3} (ha : Unit3 a) (hb : Unit3 b) (hab : a ⬝ᵥ b = 0) :
    reflMat b * sGen m a * reflMat b = sGen m a * rotMat (((-1 : ℤ) : ℝ) * (2 * (2 * Real.pi / ((2 * m : ℕ) : ℝ)))) a := by
  unfold sGen
  rw [Matrix.mul_assoc (reflMat a), rotMat_mul ha, ← Matrix.mul_assoc, ← refl_refl_comm hab, Matrix.mul_assoc, Matrix.mul_assoc,
    ← Matrix.mul_assoc (reflMat b), refl_conj_rot hb hab]
  congr 2; push_cast; ring

theorem conj_Dd (m : Nat) (hm : 0 < m) {a b : V3} (ha : Unit3 a) (hb : Unit3 b) (hab : a ⬝ᵥ b = 0) (W : M3)
    (h : WithCoset (sGen m a) (RotAbout m a) W) : WithCoset (sGen m a) (RotAbout m a) ((reflMat b)ᵀ * W * reflMat b) := by
  have hba : reflMat b *ᵥ a = a := by rw [reflMat_mulVec, dotProduct_comm, hab]; simp
  have hconj := conj_C m (a := a) _ (reflMat_orth hb) (.inl hba)
  rcases h with h | ⟨V, hV, rfl⟩
  · exact .inl (hconj W h)
  · refine .inr ⟨_, (isGrp_C m ha).mul _ _ (step_mem m hm ha (-1)) (hconj V hV), ?_⟩
    rw [← Matrix.mul_assoc (sGen m a), ← sGen_conj m ha hb hab, reflMat_tr]
    calc reflMat b * (sGen m a * V) * reflMat b = reflMat b * sGen m a * 1 * V * reflMat b := by
          rw [Matrix.mul_one]; simp only [Matrix.mul_assoc]
      _ = reflMat b * sGen m a * (reflMat b * reflMat b) * V * reflMat b := by rw [reflMat_sq hb]
      _ = _ := by simp only [Matrix.mul_assoc]

theorem not_S_refl (m : Nat) {a b : V3} (ha : Unit3 a) (hb : Unit3 b) (hab : a ⬝ᵥ b = 0) :
    ¬WithCoset (sGen m a) (RotAbout m a) (reflMat b) := by
  rintro (h | ⟨V, hV, hW⟩)
  · exact refl_not_proper hb m h.1
  · have h1 := congrArg (fun X => X *ᵥ a) hW
    rw [← Matrix.mulVec_mulVec, hV.2, sGen_axis m ha, reflMat_mulVec, dotProduct_comm, hab] at h1
    have : a = 0 := by
      ext i
      have := congrFun h1 i
      simp at this
      show a i = 0
      linarith
    rw [Unit3, this] at ha
    simp at ha

/-- `Dd(n, axis, axis2)` adds to `S(2 n, axis)` the mirror images in the plane normal to `axis2`, which is perpendicular to `axis`:
    `4 n` elements. -/
theorem C132_Dd (n : Nat) (hn : 0 < n) (axis axis2 : V3) (h : axis ≠ 0) (h' : axis2 ≠ 0) (hp : axis ⬝ᵥ axis2 = 0) (R M M2 : M3)
    (hR : TurnAbout (2 * Real.pi / ((2 * n : ℕ) : ℝ)) axis R) (hM : MirrorOf axis M) (hM2 : MirrorOf axis2 M2) :
    Implements (Dd (n : ℤ) axis axis2) (WithCoset M2 (WithCoset (M * R) (RotAbout n axis))) (4 * n) := by
  unfold Dd
  rw [asserting_ok (perp_of hp)]
  obtain ⟨a, r, h1, h2, h3, h4, h5⟩ := normalise_ok h
  obtain ⟨b, s, k1, k2, k3, k4, k5⟩ := normalise_ok h'
  have e : RotAbout n axis = RotAbout n a := funext fun W => propext (by rw [h4, rotAbout_smul n a h3])
  have hab : a ⬝ᵥ b = 0 := dot_of_smul h3 k3 (by rw [← h4, ← k4]; exact hp)
  rw [h4] at h5 hR hM
  rw [turn_iff h2 h3 h5] at hR
  rw [mirror_iff h2 h3] at hM
  rw [k4, mirror_iff k2 k3] at hM2
  subst hR hM hM2
  rw [e]
  have e2 : (2 * (n : ℤ)) = ((2 * n : ℕ) : ℤ) := by push_cast; ring
  rw [e2]
  have := implements_mirror _ _ _ _ _ _ (pre_refl k1 k2) (pre_S n hn h1 h2) (enum_S n hn h2) (isGrp_S n hn h2) rfl
    (reflMat_orth k2) (not_S_refl n h2 k2 hab) (by rw [reflMat_sq k2]; exact (isGrp_S n hn h2).one) (conj_Dd n hn h2 k2 hab)
  have e4 : 2 * ((List.range (2 * n)).map fun i : Nat => sGen n a ^ i).length = 4 * n := by simp; omega
  rw [e4] at this
  exact this

/-- axes which are not perpendicular (beyond the tolerance of `np.isclose`) are rejected with an AssertionError; `Dh` looks at them
    after the mirror plane, which fails first for a zero axis. -/
theorem C132_not_perpendicular (n : ℤ) (axis axis2 : V3) (hp : 1 / 10 ^ 8 < |axis ⬝ᵥ axis2|) :
    Cv n axis axis2 = .error .assertionError ∧ D n axis axis2 = .error .assertionError ∧ Dd n axis axis2 = .error .assertionError ∧
      Dh n axis axis2 = .error .assertionError ∧ ∀ origin, glide axis axis2 origin = .error .assertionError := by
  have hno : ¬perp axis axis2 := by
    unfold perp
    exact not_le.2 hp
  have hz : axis ≠ 0 := by
    rintro rfl
    simp at hp
    norm_num at hp
  have hd : D n axis axis2 = .error .assertionError := by unfold D asserting; rw [if_neg hno]
  refine ⟨by unfold Cv asserting; rw [if_neg hno], hd, by unfold Dd asserting; rw [if_neg hno], ?_, fun _ => by
    unfold glide asserting; rw [if_neg hno]⟩
  obtain ⟨a, r, h1, h2, h3, h4, h5⟩ := normalise_ok hz
  obtain ⟨es, k1, _⟩ := pre_refl h1 h2
  unfold Dh
  rw [k1, hd]
  rfl

/-! ## Examples -/

/-- the hypotheses: the z-axis, perpendicular to the x-axis, with the mirror image and the rotation by a right angle. -/
example : (![0, 0, 1] : V3) ≠ 0 ∧ (![0, 0, 1] : V3) ⬝ᵥ ![1, 0, 0] = 0 ∧ MirrorOf ![0, 0, 1] !![1, 0, 0; 0, 1, 0; 0, 0, -1] ∧
    TurnAbout (Real.pi / 2) ![0, 0, 1] !![0, -1, 0; 1, 0, 0; 0, 0, 1] := by
  refine ⟨fun h => ?_, ?_, ⟨?_, fun x hx => ?_⟩, ⟨?_, fun x hx => ?_⟩⟩
  · have := congrFun h 2
    simp at this
  · simp [dotProduct, Fin.sum_univ_three]
  · ext i; fin_cases i <;> simp [Matrix.mulVec, dotProduct, Fin.sum_univ_three]
  · simp [dotProduct, Fin.sum_univ_three] at hx
    ext i; fin_cases i <;> simp [Matrix.mulVec, dotProduct, Fin.sum_univ_three, hx]
  · ext i; fin_cases i <;> simp [Matrix.mulVec, dotProduct, Fin.sum_univ_three]
  · simp [dotProduct, Fin.sum_univ_three] at hx
    ext i; fin_cases i <;> simp [Matrix.mulVec, dotProduct, Fin.sum_univ_three, hx, cross_apply]

/-- axes which are not perpendicular. -/
example : 1 / 10 ^ 8 < |(![0, 0, 1] : V3) ⬝ᵥ ![1, 0, 1]| := by
  simp [dotProduct, Fin.sum_univ_three]; norm_num

/-! cases for the theorems: the axes z and x -/

theorem exZ : (![0, 0, 1] : V3) ≠ 0 := fun h => by simpa using congrFun h 2

theorem exX : (![1, 0, 0] : V3) ≠ 0 := fun h => by simpa using congrFun h 0

theorem exPerp : (![0, 0, 1] : V3) ⬝ᵥ ![1, 0, 0] = 0 := by simp [dotProduct, Fin.sum_univ_three]

theorem exMirZ : MirrorOf ![0, 0, 1] !![1, 0, 0; 0, 1, 0; 0, 0, -1] := by
  refine ⟨?_, fun x hx => ?_⟩
  · ext i; fin_cases i <;> simp [Matrix.mulVec, dotProduct, Fin.sum_univ_three]
  · simp [dotProduct, Fin.sum_univ_three] at hx
    ext i; fin_cases i <;> simp [Matrix.mulVec, dotProduct, Fin.sum_univ_three, hx]

theorem exMirX : MirrorOf ![1, 0, 0] !![-1, 0, 0; 0, 1, 0; 0, 0, 1] := by
  refine ⟨?_, fun x hx => ?_⟩
  · ext i; fin_cases i <;> simp [Matrix.mulVec, dotProduct, Fin.sum_univ_three]
  · simp [dotProduct, Fin.sum_univ_three] at hx
    ext i; fin_cases i <;> simp [Matrix.mulVec, dotProduct, Fin.sum_univ_three, hx]

theorem exTurnZ : TurnAbout (Real.pi / 2) ![0, 0, 1] !![0, -1, 0; 1, 0, 0; 0, 0, 1] := by
  refine ⟨?_, fun x hx => ?_⟩
  · ext i; fin_cases i <;> simp [Matrix.mulVec, dotProduct, Fin.sum_univ_three]
  · simp [dotProduct, Fin.sum_univ_three] at hx
    ext i; fin_cases i <;> simp [Matrix.mulVec, dotProduct, Fin.sum_univ_three, hx, cross_apply]

theorem exTurnX : TurnAbout Real.pi ![1, 0, 0] !![1, 0, 0; 0, -1, 0; 0, 0, -1] := by
  refine ⟨?_, fun x hx => ?_⟩
  · ext i; fin_cases i <;> simp [Matrix.mulVec, dotProduct, Fin.sum_univ_three]
  · simp [dotProduct, Fin.sum_univ_three] at hx
    ext i; fin_cases i <;> simp [Matrix.mulVec, dotProduct, Fin.sum_univ_three, hx, cross_apply]

theorem exTurnZ' : TurnAbout (radians 90) ![0, 0, 1] !![0, -1, 0; 1, 0, 0; 0, 0, 1] := by
  rw [show radians 90 = Real.pi / 2 by unfold radians; ring]; exact exTurnZ

theorem exTurnZ'' : TurnAbout (2 * Real.pi / ((2 * 2 : ℕ) : ℝ)) ![0, 0, 1] !![0, -1, 0; 1, 0, 0; 0, 0, 1] := by
  rw [show 2 * Real.pi / ((2 * 2 : ℕ) : ℝ) = Real.pi / 2 by push_cast; ring]; exact exTurnZ

example := C132_rotation 90 _ exZ _ exTurnZ'

example := C132_reflection _ exZ _ exMirZ

example := C132_rotoreflection 90 _ exZ _ _ exTurnZ' exMirZ

example := C132_C 4 (by decide) _ exZ

example := C132_C_elements 4 (by decide) _ exZ 1 (by decide) _ (by
  rw [show (360 * ((1 : ℕ) : ℝ) / ((4 : ℕ) : ℝ)) = 90 by norm_num]; exact exTurnZ')

example := C132_Ch 3 (by decide) _ exZ _ exMirZ

example := C132_Cv 3 (by decide) _ _ exZ exX exPerp _ exMirX

example := C132_D 3 (by decide) _ _ exZ exX exPerp _ exTurnX

example := C132_Dh 3 (by decide) _ _ exZ exX exPerp _ _ exTurnX exMirZ

example := C132_S 2 (by decide) _ exZ _ _ exTurnZ'' exMirZ

example := C132_Dd 2 (by decide) _ _ exZ exX exPerp _ _ _ exTurnZ'' exMirZ exMirX

example := C132_not_perpendicular 3 ![0, 0, 1] ![1, 0, 1] (by simp [dotProduct, Fin.sum_univ_three]; norm_num)

end Verif.PGrp.Axial
