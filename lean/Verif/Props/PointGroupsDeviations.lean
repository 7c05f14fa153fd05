import Verif.Props.PointGroupsOps

/-! C138: arguments of the point-group constructors which are not checked, and comparison of point groups. -/

set_option linter.unusedSectionVars false

namespace Verif.PGrp
open Verif.Hilbert (Err)
open Matrix

/-! ## Orders -/

theorem range1_nonpos (n : ℤ) (h : n ≤ 1) : range1 n = [] := by
  unfold range1
  have : (n - 1).toNat = 0 := by omega
  rw [this]; rfl

/-- orders below one are not rejected. -/
theorem C138_order_refuted : ¬∀ n : ℤ, n ≤ 0 → (∃ e, Planar.C n = .error e) ∧ ∃ e, Axial.C n ![0, 0, 1] = .error e := by
  intro h
  obtain ⟨e, he⟩ := (h 0 le_rfl).1
  unfold Planar.C at he
  rw [range1_nonpos 0 (by norm_num)] at he
  simp [collect, idAnd] at he

/-- they give the trivial group, whatever the axis. -/
theorem C138_order_partial (n : ℤ) (h : n ≤ 1) (axis : Fin 3 → ℝ) :
    Planar.C n = .ok (trivialPG 2) ∧ Axial.C n axis = .ok (trivialPG 3) := by
  unfold Planar.C Axial.C
  rw [range1_nonpos n h]
  exact ⟨rfl, rfl⟩

/-! ## Perpendicular axes -/

namespace Axial
open Verif.PGrp.Cubic

theorem tilted : ∃ b, normalise ![1 / 10 ^ 4, 0, 1 / 10 ^ 4] = some b ∧ Unit3 b ∧
    rotMat Real.pi b = toR !![0, 0, 1; 0, -1, 0; 1, 0, 0] := by
  have hq : Real.sqrt 2 * Real.sqrt 2 = 2 := Real.mul_self_sqrt (by norm_num)
  have hq0 : (0 : ℝ) < Real.sqrt 2 := by positivity
  have e : radians 180 = Real.pi := by unfold radians; ring
  have hn : normalise ![1 / 10 ^ 4, 0, 1 / 10 ^ 4] = some ((1 / Real.sqrt 2) • ![1, 0, 1]) := by
    rw [normalise_of (r := Real.sqrt 2 / 10 ^ 4) (by positivity)]
    · congr 1
      ext i
      fin_cases i <;> simp
      · field_simp
      · field_simp
    · have : Real.sqrt 2 / 10 ^ 4 * (Real.sqrt 2 / 10 ^ 4) = 2 / 10 ^ 8 := by
        rw [div_mul_div_comm, hq]; norm_num
      rw [this]
      simp [dotProduct, Fin.sum_univ_three]
      norm_num
  have hs : (1 / Real.sqrt 2) * (1 / Real.sqrt 2) = 1 / 2 := by rw [div_mul_div_comm, hq]; norm_num
  refine ⟨_, hn, ?_, ?_⟩
  · unfold Unit3
    rw [smul_dotProduct, dotProduct_smul, smul_eq_mul, smul_eq_mul, ← mul_assoc, hs]
    simp [dotProduct, Fin.sum_univ_three]
    norm_num
  · have e2 : vecMulVec ((1 / Real.sqrt 2) • (![1, 0, 1] : V3)) ((1 / Real.sqrt 2) • ![1, 0, 1]) = (1 / 2 : ℝ) • vecMulVec ![1, 0, 1] ![1, 0, 1] := by
      ext i j
      simp only [vecMulVec_apply, Matrix.smul_apply, Pi.smul_apply, smul_eq_mul]
      rw [mul_mul_mul_comm, hs]
    rw [← e, rot_half, e2]
    ext i j; fin_cases i <;> fin_cases j <;> simp [toR, vecMulVec_apply] <;> norm_num

theorem small_z : ∃ a, normalise ![0, 0, 1 / 10 ^ 4] = some a ∧ Unit3 a ∧ rotMat Real.pi a = toR !![-1, 0, 0; 0, -1, 0; 0, 0, 1] := by
  have e : radians 180 = Real.pi := by unfold radians; ring
  have hn : normalise ![0, 0, 1 / 10 ^ 4] = some ![0, 0, 1] := by
    rw [normalise_of (r := 1 / 10 ^ 4) (by positivity)]
    · congr 1
      ext i
      fin_cases i <;> simp
    · simp [dotProduct, Fin.sum_univ_three]
  refine ⟨_, hn, by simp [Unit3, dotProduct, Fin.sum_univ_three], ?_⟩
  rw [← e, rot_half]
  ext i j; fin_cases i <;> fin_cases j <;> simp [toR] <;> norm_num

/-- the axes `(0, 0, 1e-4)` and `(1e-4, 0, 1e-4)`, at 45 degrees, pass the test of perpendicularity. -/
theorem C138_perpendicular_refuted :
    ¬∀ axis axis2 : Fin 3 → ℝ, axis ⬝ᵥ axis2 ≠ 0 → 2 * (axis ⬝ᵥ axis2) ^ 2 = (axis ⬝ᵥ axis) * (axis2 ⬝ᵥ axis2) →
      D 2 axis axis2 = .error .assertionError := by
  intro h
  have := h ![0, 0, 1 / 10 ^ 4] ![1 / 10 ^ 4, 0, 1 / 10 ^ 4] (by simp [dotProduct, Fin.sum_univ_three])
    (by simp [dotProduct, Fin.sum_univ_three]; norm_num)
  unfold D at this
  rw [asserting_ok (by simp [perp, Fin.sum_univ_three]; norm_num)] at this
  obtain ⟨a, h1, h2, h3⟩ := small_z
  obtain ⟨b, k1, k2, k3⟩ := tilted
  obtain ⟨es, he, _⟩ := pre_prod _ _ _ _ (pre_C2 k1 k2) (pre_C2 h1 h2)
  rw [he] at this
  cases this

/-- the "group" returned then is not closed: the product table raises a RuntimeError. -/
theorem C138_tilted_partial (κ : Type) [DecidableEq κ] (canon : Matrix (Fin 3 ⊕ Unit) (Fin 3 ⊕ Unit) ℝ → κ) (hc : Faithful canon ⊥) :
    ∃ G, D 2 ![0, 0, 1 / 10 ^ 4] ![1 / 10 ^ 4, 0, 1 / 10 ^ 4] = .ok G ∧ G.elems.length = 4 ∧
      productTable canon G.elems = .error .runtimeError := by
  obtain ⟨a, h1, h2, h3⟩ := small_z
  obtain ⟨b, k1, k2, k3⟩ := tilted
  obtain ⟨es, he, hl⟩ := pre_prod _ _ _ _ (pre_C2 k1 k2) (pre_C2 h1 h2)
  have hW : ([1, rotMat Real.pi b].flatMap fun W => [1, rotMat Real.pi a].map fun V => W * V) =
      [!![1, 0, 0; 0, 1, 0; 0, 0, 1], !![-1, 0, 0; 0, -1, 0; 0, 0, 1], !![0, 0, 1; 0, -1, 0; 1, 0, 0],
        !![0, 0, 1; 0, 1, 0; -1, 0, 0]].map toR := by
    rw [h3, k3, ← toR_one]
    simp only [List.flatMap_cons, List.flatMap_nil, List.map_cons, List.map_nil, List.append_nil, List.cons_append, List.nil_append,
      ← toR_mul]
    have e : ([1 * 1, 1 * !![-1, 0, 0; 0, -1, 0; 0, 0, 1], !![0, 0, 1; 0, -1, 0; 1, 0, 0] * 1,
        !![0, 0, 1; 0, -1, 0; 1, 0, 0] * !![-1, 0, 0; 0, -1, 0; 0, 0, 1]] : List MZ) =
        [!![1, 0, 0; 0, 1, 0; 0, 0, 1], !![-1, 0, 0; 0, -1, 0; 0, 0, 1], !![0, 0, 1; 0, -1, 0; 1, 0, 0],
        !![0, 0, 1; 0, 1, 0; -1, 0, 0]] := by decide +kernel
    have := congrArg (List.map toR) e
    simpa only [List.map_cons, List.map_nil] using this
  rw [hW] at hl
  have hlen := hl.length_eq
  refine ⟨⟨.id :: es, none⟩, ?_, by rw [hlen]; rfl, ?_⟩
  · unfold D
    rw [asserting_ok (by simp [perp, Fin.sum_univ_three]; norm_num), he]
  have get : ∀ e ∈ PGElem.id :: es, ∃ m ∈ [(!![1, 0, 0; 0, 1, 0; 0, 0, 1] : MZ), !![-1, 0, 0; 0, -1, 0; 0, 0, 1],
      !![0, 0, 1; 0, -1, 0; 1, 0, 0], !![0, 0, 1; 0, 1, 0; -1, 0, 0]], Lin e (toR m) := by
    intro e he
    obtain ⟨i, hi, rfl⟩ := List.mem_iff_getElem.1 he
    have hi' : i < (List.map toR [(!![1, 0, 0; 0, 1, 0; 0, 0, 1] : MZ), !![-1, 0, 0; 0, -1, 0; 0, 0, 1],
      !![0, 0, 1; 0, -1, 0; 1, 0, 0], !![0, 0, 1; 0, 1, 0; -1, 0, 0]]).length := by rw [← hl.length_eq]; exact hi
    have h := List.Forall₂.get hl hi hi'
    refine ⟨_, List.getElem_mem (by simpa using hi'), ?_⟩
    simpa only [List.get_eq_getElem, List.getElem_map] using h
  have back : ∀ (i : Nat) (m : MZ), [(!![1, 0, 0; 0, 1, 0; 0, 0, 1] : MZ), !![-1, 0, 0; 0, -1, 0; 0, 0, 1],
      !![0, 0, 1; 0, -1, 0; 1, 0, 0], !![0, 0, 1; 0, 1, 0; -1, 0, 0]][i]? = some m → ∃ e ∈ PGElem.id :: es, Lin e (toR m) := by
    intro i m hm
    obtain ⟨hi, rfl⟩ := List.getElem?_eq_some_iff.1 hm
    have hi' : i < (PGElem.id :: es).length := by rw [hl.length_eq]; simpa using hi
    have h := List.Forall₂.get hl hi' (by simpa using hi)
    refine ⟨_, List.getElem_mem hi', ?_⟩
    simpa only [List.get_eq_getElem, List.getElem_map] using h
  refine C42_unclosed hc _ (fun e he => (get e he).choose_spec.2.1) ?_
  obtain ⟨e, he', hL⟩ := back 3 _ rfl
  refine ⟨e, he', e, he', fun c hc' t ht => ?_⟩
  obtain ⟨m, hm, hLc⟩ := get c hc'
  rw [AddSubgroup.mem_bot] at ht
  subst ht
  have hne : m ≠ !![0, 0, 1; 0, 1, 0; -1, 0, 0] * !![0, 0, 1; 0, 1, 0; -1, 0, 0] := by
    have : ∀ m ∈ [(!![1, 0, 0; 0, 1, 0; 0, 0, 1] : MZ), !![-1, 0, 0; 0, -1, 0; 0, 0, 1],
      !![0, 0, 1; 0, -1, 0; 1, 0, 0], !![0, 0, 1; 0, 1, 0; -1, 0, 0]],
        m ≠ !![0, 0, 1; 0, 1, 0; -1, 0, 0] * !![0, 0, 1; 0, 1, 0; -1, 0, 0] := by decide +kernel
    exact this m hm
  by_contra hcon
  push Not at hcon
  apply hne
  apply toR_inj
  rw [toR_mul]
  apply Matrix.ext_of_mulVec_single
  intro i
  have := hcon (Pi.single i 1) _ (by rw [hL.2, Option.bind_some, hL.2])
  rw [hLc.2, Option.some.injEq, add_zero] at this
  rw [this, Matrix.mulVec_mulVec]

end Axial

/-! ## Comparison -/

section
variable {κ : Type} [DecidableEq κ] {K : Type} [DecidableEq K] {d : Nat} (canon : Matrix (Fin d ⊕ Unit) (Fin d ⊕ Unit) K → κ)

/-- a point group without unit cell cannot be compared, even with itself. -/
theorem C138_eq_refuted : ¬∀ A : List (PGElem ℚ 1) × Option (Matrix (Fin 1) (Fin 1) ℚ), pgEq (fun m => m) A A = some (.ok true) := by
  intro h
  have := h ([.id], none)
  simp [pgEq] at this

/-- groups with different numbers of elements may be equal in one order, and raise in the other. -/
theorem C138_eq_symmetric_refuted : ¬∀ A B : List (PGElem ℚ 1) × Option (Matrix (Fin 1) (Fin 1) ℚ),
    pgEq (fun m => m) A B = some (.ok true) → A.1.length = B.1.length ∧ pgEq (fun m => m) B A = some (.ok true) := by
  intro h
  have := (h ([.id], some 1) ([.id, .id], some 1) (by simp [pgEq, eqLoop, elemEq])).1
  simp at this

/-- comparison in terms of the lists: groups without unit cells raise a TypeError; one cell only, or different ones: not equal; with
    the same cell the elements of the first group are compared with those at the same positions of the second, up to the first
    difference. -/
theorem C138_eq_partial (A B : List (PGElem K d)) (a b : Matrix (Fin d) (Fin d) K) (hA : ∀ e ∈ A, e ≠ .other) (hB : ∀ e ∈ B, e ≠ .other) :
    pgEq canon (A, none) (B, none) = some (.error .typeError) ∧ pgEq canon (A, some a) (B, none) = some (.ok false) ∧
    pgEq canon (A, none) (B, some b) = some (.ok false) ∧ (a ≠ b → pgEq canon (A, some a) (B, some b) = some (.ok false)) ∧
    (pgEq canon (A, some a) (B, some a) = some (.ok true) ↔
      ∀ (i : Nat) e, A[i]? = some e → ∃ f, B[i]? = some f ∧ elemEq canon e f = some true) ∧
    (pgEq canon (A, some a) (B, some a) = some (.error .indexError) ↔ B.length < A.length ∧
      ∀ (i : Nat) e f, A[i]? = some e → B[i]? = some f → elemEq canon e f = some true) := by
  refine ⟨rfl, rfl, rfl, fun h => by simp [pgEq, h], ?_, ?_⟩
  · have e : pgEq canon (A, some a) (B, some a) = eqLoop canon A B := by simp [pgEq]
    rw [e]
    clear e
    induction A generalizing B with
    | nil => simp [eqLoop]
    | cons x A ih =>
      cases B with
      | nil =>
        simp only [eqLoop]
        constructor
        · intro h; simp at h
        · intro h; obtain ⟨f, hf, _⟩ := h 0 x rfl; simp at hf
      | cons y B =>
        have ihB := ih B (fun e he => hA e (List.mem_cons_of_mem _ he)) (fun e he => hB e (List.mem_cons_of_mem _ he))
        simp only [eqLoop]
        constructor
        · intro h
          cases hxy : elemEq canon x y with
          | none => simp [hxy] at h
          | some v =>
            cases v with
            | false => simp [hxy] at h
            | true =>
              simp only [hxy] at h
              intro i e he
              cases i with
              | zero =>
                simp only [List.getElem?_cons_zero, Option.some.injEq] at he
                subst he
                exact ⟨y, rfl, hxy⟩
              | succ i => exact ihB.1 h i e (by simpa using he)
        · intro h
          obtain ⟨f, hf, hfe⟩ := h 0 x rfl
          simp only [List.getElem?_cons_zero, Option.some.injEq] at hf
          subst hf
          rw [hfe]
          exact ihB.2 fun i e he => h (i + 1) e (by simpa using he)
  · have e : pgEq canon (A, some a) (B, some a) = eqLoop canon A B := by simp [pgEq]
    rw [e]
    clear e
    have dec : ∀ x y : PGElem K d, x ≠ .other → y ≠ .other → ∃ v, elemEq canon x y = some v := by
      intro x y hx hy
      cases x <;> cases y <;> first | exact absurd rfl hx | exact absurd rfl hy | exact ⟨_, rfl⟩
    induction A generalizing B with
    | nil => simp [eqLoop]
    | cons x A ih =>
      cases B with
      | nil => simp [eqLoop]
      | cons y B =>
        have ihB := ih B (fun e he => hA e (List.mem_cons_of_mem _ he)) (fun e he => hB e (List.mem_cons_of_mem _ he))
        simp only [eqLoop]
        obtain ⟨v, hv⟩ := dec x y (hA x (by simp)) (hB y (by simp))
        cases v with
        | false =>
          simp only [hv]
          constructor
          · intro h; simp at h
          · rintro ⟨_, h⟩
            have := h 0 x y rfl rfl
            rw [hv] at this; simp at this
        | true =>
          simp only [hv]
          refine ihB.trans ?_
          constructor
          · rintro ⟨h1, h2⟩
            refine ⟨by simpa using h1, fun i e f he hf => ?_⟩
            cases i with
            | zero =>
              simp only [List.getElem?_cons_zero, Option.some.injEq] at he hf
              subst he hf
              exact hv
            | succ i => exact h2 i e f (by simpa using he) (by simpa using hf)
          · rintro ⟨h1, h2⟩
            exact ⟨by simpa using h1, fun i e f he hf => h2 (i + 1) e f (by simpa using he) (by simpa using hf)⟩

end

/-- elements to compare. -/
example : (∀ e ∈ ([.id, .sym ⟨1⟩] : List (PGElem ℚ 1)), e ≠ .other) ∧ elemEq (fun m => m) (.sym ⟨1⟩ : PGElem ℚ 1) (.sym ⟨1⟩) = some true ∧
    elemEq (fun m => m) (.id : PGElem ℚ 1) (.sym ⟨1⟩) = some false := by
  refine ⟨?_, by simp [elemEq], rfl⟩
  intro e he
  simp only [List.mem_cons, List.not_mem_nil, or_false] at he
  rcases he with rfl | rfl <;> simp

end Verif.PGrp
