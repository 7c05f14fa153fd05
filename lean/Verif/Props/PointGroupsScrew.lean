import Verif.Props.PointGroupsAxial

/-! C133: glides and screws of space, and the groups they generate. -/

set_option linter.unusedSectionVars false

namespace Verif.PGrp.Axial
open Verif.Hilbert (Err)
open Matrix

/-- `glide(axis, trans, origin)` is the mirror image in the plane through `origin` normal to `axis`, followed by the translation by
    `trans`, which is perpendicular to `axis`. -/
theorem C133_glide (axis trans origin : V3) (h : axis ≠ 0) (hp : axis ⬝ᵥ trans = 0) (M : M3) (hM : MirrorOf axis M) :
    ∃ p, glide axis trans origin = .ok p ∧ ∀ x, p.act (origin + x) = origin + M *ᵥ x + trans := by
  obtain ⟨a, r, h1, h2, h3, h4, h5⟩ := normalise_ok h
  rw [h4, mirror_iff h2 h3] at hM
  subst hM
  refine ⟨⟨block (reflMat a) (trans + (1 - reflMat a) *ᵥ origin)⟩, ?_, fun x => ?_⟩
  · unfold glide; rw [asserting_ok (perp_of hp), withAxis_ok h1, mkPG_ok _ _ (reflMat_orth h2)]
  · rw [act_block, Matrix.mulVec_add, Matrix.sub_mulVec, Matrix.one_mulVec]; abel

/-- a glide applied twice is the translation by twice `trans`. -/
theorem C133_glide_twice (axis trans origin : V3) (h : axis ≠ 0) (hp : axis ⬝ᵥ trans = 0) (x : V3) :
    ∃ p, glide axis trans origin = .ok p ∧ p.act (p.act x) = x + (2 : ℝ) • trans := by
  obtain ⟨a, r, h1, h2, h3, h4, h5⟩ := normalise_ok h
  obtain ⟨p, hp', hact⟩ := C133_glide axis trans origin h hp (reflMat a) (by rw [h4, mirror_iff h2 h3])
  have hat : a ⬝ᵥ trans = 0 := by rw [h4, dot_smul_zero h3] at hp; exact hp
  refine ⟨p, hp', ?_⟩
  have e : x = origin + (x - origin) := by abel
  rw [e, hact]
  have e2 : origin + reflMat a *ᵥ (x - origin) + trans = origin + (reflMat a *ᵥ (x - origin) + trans) := by abel
  rw [e2, hact, Matrix.mulVec_add, Matrix.mulVec_mulVec, reflMat_sq h2, Matrix.one_mulVec, reflMat_mulVec a trans, hat]
  ext i; simp; ring

/-- `glide_group(axis, trans, origin)` has the identity and the glide. -/
theorem C133_glide_group (axis trans origin : V3) (h : axis ≠ 0) (hp : axis ⬝ᵥ trans = 0) :
    ∃ p, glide axis trans origin = .ok p ∧ glideGroup axis trans origin = .ok ⟨[.id, .sym p], none⟩ := by
  obtain ⟨p, hp', _⟩ := C133_glide_twice axis trans origin h hp 0
  exact ⟨p, hp', by unfold glideGroup pairGroup; rw [hp']⟩

/-- `screw(angle, trans, origin)` is the right-handed rotation by `angle` degrees around the line through `origin` along `trans`,
    followed by the translation by `trans`. -/
theorem C133_screw (angle : ℝ) (trans origin : V3) (h : trans ≠ 0) (R : M3) (hR : TurnAbout (radians angle) trans R) :
    ∃ p, screw angle trans origin = .ok p ∧ ∀ x, p.act (origin + x) = origin + R *ᵥ x + trans := by
  obtain ⟨a, r, h1, h2, h3, h4, h5⟩ := normalise_ok h
  rw [h4] at h5 hR
  rw [turn_iff h2 h3 h5] at hR
  subst hR
  refine ⟨⟨block (rotMat (radians angle) a) (trans + (1 - rotMat (radians angle) a) *ᵥ origin)⟩, ?_, fun x => ?_⟩
  · unfold screw; rw [withAxis_ok h1, mkPG_ok _ _ (rotMat_orth h2 _)]
  · rw [act_block, Matrix.mulVec_add, Matrix.sub_mulVec, Matrix.one_mulVec]; abel

theorem normalise_smul {trans a : V3} {r c : ℝ} (hr : 0 < r) (hc : 0 < c) (ha : Unit3 a) (h4 : trans = r • a) :
    normalise (c • trans) = some a := by
  have hne : c • trans ≠ 0 := by
    rw [h4, smul_smul]
    intro h0
    have h1 := congrArg (fun v => a ⬝ᵥ v) h0
    simp only [dotProduct_smul, smul_eq_mul, dotProduct_zero] at h1
    rw [ha, mul_one] at h1
    exact (mul_pos hc hr).ne' h1
  have hs : Real.sqrt ((c • trans) ⬝ᵥ (c • trans)) = c * r := by
    rw [h4, smul_smul, smul_dotProduct, dotProduct_smul, ha, smul_eq_mul, smul_eq_mul, mul_one]
    exact Real.sqrt_mul_self (mul_pos hc hr).le
  unfold normalise
  simp only
  rw [sum_sq, hs, if_neg (mul_pos hc hr).ne']
  congr 1
  ext i
  rw [h4]
  simp only [Pi.smul_apply, smul_eq_mul]
  have := hr.ne'
  have := hc.ne'
  field_simp

/-- the screw by `i` steps. -/
noncomputable def stepSym (angle : ℝ) (a trans origin : V3) (i : Nat) : PGSym ℝ 3 :=
  ⟨block (rotMat ((i : ℝ) * radians angle) a) ((i : ℝ) • trans + (1 - rotMat ((i : ℝ) * radians angle) a) *ᵥ origin)⟩

theorem screw_step {trans a : V3} {r : ℝ} (hr : 0 < r) (ha : Unit3 a) (h4 : trans = r • a) (angle : ℝ) (origin : V3) (i : Nat)
    (hi : 0 < i) : screw ((i : ℝ) * angle) ((i : ℝ) • trans) origin = .ok (stepSym angle a trans origin i) := by
  have hi' : (0 : ℝ) < i := by exact_mod_cast hi
  have e : radians ((i : ℝ) * angle) = (i : ℝ) * radians angle := by unfold radians; ring
  unfold screw
  rw [withAxis_ok (normalise_smul hr hi' ha h4), mkPG_ok _ _ (rotMat_orth ha _), e]
  rfl

theorem step_act (angle : ℝ) (a trans origin : V3) (i : Nat) (x : V3) :
    (stepSym angle a trans origin i).act (origin + x) = origin + rotMat ((i : ℝ) * radians angle) a *ᵥ x + (i : ℝ) • trans := by
  unfold stepSym
  rw [act_block, Matrix.mulVec_add, Matrix.sub_mulVec, Matrix.one_mulVec]; abel

theorem step_comp {a trans : V3} {r : ℝ} (ha : Unit3 a) (h4 : trans = r • a) (angle : ℝ) (origin : V3) (i j : Nat) (x : V3) :
    (stepSym angle a trans origin i).act ((stepSym angle a trans origin j).act x) = (stepSym angle a trans origin (i + j)).act x := by
  have e : x = origin + (x - origin) := by abel
  rw [e, step_act, step_act, add_assoc, step_act, Matrix.mulVec_add, Matrix.mulVec_mulVec, rotMat_mul ha]
  have h1 : rotMat ((i : ℝ) * radians angle) a *ᵥ ((j : ℝ) • trans) = (j : ℝ) • trans := by
    rw [h4, Matrix.mulVec_smul, Matrix.mulVec_smul, rotMat_axis ha]
  have h2 : (i : ℝ) * radians angle + (j : ℝ) * radians angle = ((i + j : ℕ) : ℝ) * radians angle := by push_cast; ring
  rw [h1, h2, Nat.cast_add, add_smul]
  abel

theorem loop_spec {trans a : V3} {r : ℝ} (hr : 0 < r) (ha : Unit3 a) (h4 : trans = r • a) (angle : ℝ) (origin : V3) :
    ∀ (k i fuel : Nat), 0 < i → k < fuel → (∀ j, i ≤ j → j < i + k → ¬isApproxInt ((j : ℝ) * angle / 360)) →
      isApproxInt (((i + k : ℕ) : ℝ) * angle / 360) →
      screwLoop angle trans origin fuel i = some (.ok ((List.range' i k).map fun j => .sym (stepSym angle a trans origin j))) := by
  intro k
  induction k with
  | zero =>
    intro i fuel hi hf _ hstop
    obtain ⟨f, rfl⟩ : ∃ f, fuel = f + 1 := ⟨fuel - 1, by omega⟩
    unfold screwLoop
    rw [add_zero] at hstop
    rw [if_pos hstop]
    rfl
  | succ k ih =>
    intro i fuel hi hf hno hstop
    obtain ⟨f, rfl⟩ : ∃ f, fuel = f + 1 := ⟨fuel - 1, by omega⟩
    unfold screwLoop
    rw [if_neg (hno i (le_refl _) (by omega)), screw_step hr ha h4 angle origin i hi,
      ih (i + 1) f (by omega) (by omega) (fun j h1 h2 => hno j (by omega) (by omega)) (by
        have e : i + 1 + k = i + (k + 1) := by omega
        rw [e]; exact hstop)]
    rfl

theorem approx_of_int (z : ℤ) : isApproxInt (z : ℝ) := by
  unfold isApproxInt
  rw [round_intCast, sub_self, abs_zero]
  norm_num

theorem not_approx (p : ℤ) (q : Nat) (hq0 : 0 < q) (hq : q < 10 ^ 8) (j : Nat) (hj : ¬(q : ℤ) ∣ j * p) :
    ¬isApproxInt ((j : ℝ) * p / q) := by
  unfold isApproxInt
  rw [not_le]
  have hqp : (0 : ℝ) < q := by positivity
  set z := round ((j : ℝ) * p / q)
  have e : (j : ℝ) * p / q - z = ((j * p - z * q : ℤ) : ℝ) / q := by
    push_cast; field_simp
  rw [e, abs_div, abs_of_pos hqp]
  have hne : (j * p - z * q : ℤ) ≠ 0 := by
    intro h0
    exact hj ⟨z, by linarith⟩
  have h1 : (1 : ℝ) ≤ |((j * p - z * q : ℤ) : ℝ)| := by
    rw [← Int.cast_abs]
    exact_mod_cast Int.one_le_abs hne
  rw [lt_div_iff₀ hqp]
  have h2 : (q : ℝ) < 10 ^ 8 := by exact_mod_cast hq
  have h3 : 1 / 10 ^ 8 * (q : ℝ) < 1 := by
    rw [one_div, inv_mul_lt_iff₀ (by positivity)]
    linarith
  linarith

theorem step_period {a trans : V3} (ha : Unit3 a) (p : ℤ) (q : Nat) (hq0 : 0 < q) (origin : V3) (i : Nat) (x : V3) :
    (stepSym (360 * p / q) a trans origin (i + q)).act x = (stepSym (360 * p / q) a trans origin i).act x + (q : ℝ) • trans := by
  have hq' : (q : ℝ) ≠ 0 := by positivity
  have e : x = origin + (x - origin) := by abel
  have h1 : ((i + q : ℕ) : ℝ) * radians (360 * p / q) = (i : ℝ) * radians (360 * p / q) + p * (2 * Real.pi) := by
    unfold radians; push_cast; field_simp; ring
  rw [e, step_act, step_act, h1, ← rotMat_mul ha, (rotMat_eq_one ha _).2 ⟨p, rfl⟩, Matrix.mul_one, Nat.cast_add, add_smul]
  abel

theorem step_zero (angle : ℝ) (a trans origin : V3) (x : V3) : (stepSym angle a trans origin 0).act x = x := by
  have e : x = origin + (x - origin) := by abel
  rw [e, step_act]
  simp [rotMat_zero]

theorem step_iterate {a trans : V3} {r : ℝ} (ha : Unit3 a) (h4 : trans = r • a) (angle : ℝ) (origin : V3) (i : Nat) (x : V3) :
    (stepSym angle a trans origin 1).act^[i] x = (stepSym angle a trans origin i).act x := by
  induction i with
  | zero => rw [step_zero]; rfl
  | succ i ih => rw [Function.iterate_succ_apply', ih, step_comp ha h4, add_comm]

/-- `screw_group` for a rotation by the fraction `p / q` of a full turn, in lowest terms with a denominator below 10^8: the `q` powers
    of the screw, from the identity on.  Its `q`-th power is the translation by `q trans`. -/
theorem C133_screw_group (p : ℤ) (q : Nat) (hq0 : 0 < q) (hq : q < 10 ^ 8) (hpq : IsCoprime (q : ℤ) p) (trans origin : V3)
    (h : trans ≠ 0) (fuel : Nat) (hf : q ≤ fuel) :
    ∃ s G, screw (360 * p / q) trans origin = .ok s ∧ screwGroup fuel (360 * p / q) trans origin = some (.ok G) ∧
      G.cell = none ∧ G.elems.length = q ∧ (∀ (i : Nat), i < q → ∃ e, G.elems[i]? = some e ∧ ∀ x, e.act x = some (s.act^[i] x)) ∧
      ∀ x, s.act^[q] x = x + (q : ℝ) • trans := by
  obtain ⟨a, r, h1, h2, h3, h4, h5⟩ := normalise_ok h
  have hq' : (q : ℝ) ≠ 0 := by positivity
  have e1 : ∀ j : Nat, (j : ℝ) * (360 * p / q) / 360 = (j : ℝ) * p / q := by intro j; field_simp
  refine ⟨stepSym (360 * p / q) a trans origin 1,
    ⟨.id :: (List.range' 1 (q - 1)).map fun j => .sym (stepSym (360 * p / q) a trans origin j), none⟩, ?_, ?_, rfl, ?_, ?_, ?_⟩
  · have := screw_step h3 h2 h4 (360 * p / q) origin 1 (by decide)
    simpa using this
  · unfold screwGroup
    rw [loop_spec h3 h2 h4 (360 * p / q) origin (q - 1) 1 fuel (by decide) (by omega) (fun j hj1 hj2 => by
        rw [e1]
        refine not_approx p q hq0 hq j fun hd => ?_
        have := (hpq.dvd_of_dvd_mul_right hd)
        have := Int.le_of_dvd (by omega) this
        omega) (by
        rw [e1]
        have e2 : 1 + (q - 1) = q := by omega
        rw [e2]
        have e3 : (q : ℝ) * p / q = (p : ℝ) := by field_simp
        rw [e3]
        exact approx_of_int p)]
    rfl
  · simp; omega
  · intro i hi
    rcases i with _ | i
    · exact ⟨.id, rfl, fun x => rfl⟩
    · refine ⟨.sym (stepSym (360 * p / q) a trans origin (i + 1)), ?_, fun x => ?_⟩
      · rw [List.getElem?_cons_succ, List.getElem?_map, List.getElem?_range' (by omega)]
        simp [add_comm]
      · rw [step_iterate h2 h4]
        rfl
  · intro x
    rw [step_iterate h2 h4]
    have := step_period h2 p q hq0 origin 0 x (trans := trans)
    rwa [zero_add, step_zero] at this

/-- with a unit cell whose translations include `q trans` the product table of the screw group exists. -/
theorem C133_screw_group_table (p : ℤ) (q : Nat) (hq0 : 0 < q) (hq : q < 10 ^ 8) (hpq : IsCoprime (q : ℤ) p) (trans origin : V3)
    (h : trans ≠ 0) (fuel : Nat) (hf : q ≤ fuel) (L : AddSubgroup V3) (hL : (q : ℝ) • trans ∈ L) (κ : Type) [DecidableEq κ]
    (canon : Matrix (Fin 3 ⊕ Unit) (Fin 3 ⊕ Unit) ℝ → κ) (hc : Faithful canon L) :
    ∃ G T, screwGroup fuel (360 * p / q) trans origin = some (.ok G) ∧ productTable canon G.elems = .ok T := by
  obtain ⟨s, G, k1, k2, k3, k4, k5, k6⟩ := C133_screw_group p q hq0 hq hpq trans origin h fuel hf
  obtain ⟨a, r, h1, h2, h3, h4, h5⟩ := normalise_ok h
  -- the elements, in terms of the steps
  have hs : s = stepSym (360 * p / q) a trans origin 1 := by
    have := screw_step h3 h2 h4 (360 * p / q) origin 1 (by decide)
    simp only [Nat.cast_one, one_mul, one_smul] at this
    rw [k1] at this
    exact Except.ok.inj this
  have idx : ∀ e ∈ G.elems, ∃ i < q, ∀ x, e.act x = some ((stepSym (360 * p / q) a trans origin i).act x) := by
    intro e he
    obtain ⟨i, hi, rfl⟩ := List.mem_iff_getElem.1 he
    obtain ⟨e', he', hx⟩ := k5 i (by omega)
    rw [List.getElem?_eq_getElem hi, Option.some.injEq] at he'
    exact ⟨i, by omega, fun x => by rw [he', hx x, hs, step_iterate h2 h4]⟩
  have back : ∀ i < q, ∃ e ∈ G.elems, ∀ x, e.act x = some ((stepSym (360 * p / q) a trans origin i).act x) := by
    intro i hi
    obtain ⟨e', he', hx⟩ := k5 i hi
    exact ⟨e', List.mem_of_getElem? he', fun x => by rw [hx x, hs, step_iterate h2 h4]⟩
  have good : ∀ e ∈ G.elems, Good e := by
    have : G.elems = .id :: (List.range' 1 (q - 1)).map fun j => .sym (stepSym (360 * p / q) a trans origin j) := by
      have e1 : ∀ j : Nat, (j : ℝ) * (360 * p / q) / 360 = (j : ℝ) * p / q := by
        intro j
        have hq' : (q : ℝ) ≠ 0 := by positivity
        field_simp
      have := loop_spec h3 h2 h4 (360 * p / q) origin (q - 1) 1 fuel (by decide) (by omega) (fun j hj1 hj2 => by
        rw [e1]
        refine not_approx p q hq0 hq j fun hd => ?_
        have := (hpq.dvd_of_dvd_mul_right hd)
        have := Int.le_of_dvd (by omega) this
        omega) (by
        rw [e1]
        have e2 : 1 + (q - 1) = q := by omega
        rw [e2]
        have hq' : (q : ℝ) ≠ 0 := by positivity
        have e3 : (q : ℝ) * p / q = (p : ℝ) := by field_simp
        rw [e3]
        exact approx_of_int p)
      unfold screwGroup at k2
      rw [this] at k2
      simp only [Option.map_some, Option.some.injEq, idAnd, Except.ok.injEq] at k2
      rw [← k2]
    rw [this]
    intro e he
    rcases List.mem_cons.1 he with rfl | he
    · trivial
    · obtain ⟨j, _, rfl⟩ := List.mem_map.1 he
      exact ⟨_, _, mkPG_ok _ _ (rotMat_orth h2 _)⟩
  obtain ⟨T, hT⟩ := C42_closed hc G.elems good (by
      intro e he
      obtain ⟨i, hi, hx⟩ := idx e he
      rcases Nat.eq_zero_or_pos i with rfl | hpos
      · obtain ⟨e', he', hx'⟩ := back 0 hq0
        exact ⟨e', he', 0, L.zero_mem, fun x => by rw [hx, Option.bind_some, hx', step_zero, step_zero, add_zero]⟩
      · obtain ⟨e', he', hx'⟩ := back (q - i) (by omega)
        refine ⟨e', he', _, hL, fun x => ?_⟩
        rw [hx, Option.bind_some, hx', step_comp h2 h4]
        have e2 : q - i + i = 0 + q := by omega
        rw [e2, step_period h2 p q hq0, step_zero]) (by
      intro b hb c hc'
      obtain ⟨i, hi, hx⟩ := idx b hb
      obtain ⟨j, hj, hx'⟩ := idx c hc'
      by_cases hij : i + j < q
      · obtain ⟨e', he', hx''⟩ := back (i + j) hij
        refine ⟨e', he', 0, L.zero_mem, fun x y hy => ?_⟩
        rw [hx', Option.bind_some, hx, step_comp h2 h4, Option.some.injEq] at hy
        rw [hx'', hy, add_zero]
      · obtain ⟨e', he', hx''⟩ := back (i + j - q) (by omega)
        refine ⟨e', he', _, L.neg_mem hL, fun x y hy => ?_⟩
        rw [hx', Option.bind_some, hx, step_comp h2 h4, Option.some.injEq] at hy
        have e2 : i + j = (i + j - q) + q := by omega
        rw [e2, step_period h2 p q hq0] at hy
        rw [hx'', ← hy, add_neg_cancel_right])
  exact ⟨G, T, k2, hT⟩

/-! ## Examples -/

/-- a fourfold screw along the z-axis: a quarter of a turn. -/
example : IsCoprime ((4 : Nat) : ℤ) 1 ∧ (4 : Nat) < 10 ^ 8 ∧ (![0, 0, 1 / 4] : V3) ≠ 0 ∧ (![1, 0, 0] : V3) ⬝ᵥ ![0, 1, 0] = 0 := by
  refine ⟨isCoprime_one_right, by norm_num, fun h => ?_, by simp [dotProduct, Fin.sum_univ_three]⟩
  have := congrFun h 2
  simp at this

/-! cases for the theorems -/

theorem exT : (![0, 0, 1] : V3) ≠ 0 := exZ

example := C133_glide ![0, 0, 1] ![1, 0, 0] ![1, 2, 3] exZ exPerp _ exMirZ

example := C133_glide_twice ![0, 0, 1] ![1, 0, 0] ![1, 2, 3] exZ exPerp ![4, 5, 6]

example := C133_glide_group ![0, 0, 1] ![1, 0, 0] ![1, 2, 3] exZ exPerp

example := C133_screw 90 ![0, 0, 1] ![1, 2, 3] exZ _ exTurnZ'

example := C133_screw_group 1 4 (by decide) (by decide) isCoprime_one_right ![0, 0, 1] ![1, 2, 3] exZ 10 (by decide)

end Verif.PGrp.Axial
