import Verif.Lemmas.IrrChar
import Verif.Props.FloatBins

/-! C150, C151: character tables. -/

namespace Verif.CharTab
open Verif.Grp Verif.Irrep Finset

variable {G : Type} [Group G] [Fintype G] {elems : List G} {T : List (List Nat)}

/-! ### bins -/

theorem rint_near (x : ℝ) : |x - (Lat.rint x : ℝ)| ≤ 1 / 2 := by
  have h1 := Int.floor_le x
  have h2 := Int.lt_floor_add_one x
  unfold Lat.rint
  rw [abs_le]
  split
  · constructor <;> linarith
  · split
    · push_cast
      constructor <;> linarith
    · split
      · constructor <;> linarith
      · push_cast
        constructor <;> linarith

theorem comparable_eq (x y : ℝ) (h : Lat.comparable x = Lat.comparable y) : |x - y| ≤ 1 / 3326400 := by
  unfold Lat.comparable at h
  have h1 := abs_le.1 (rint_near (x * 3326400 + 5413 / 15629))
  have h2 := abs_le.1 (rint_near (y * 3326400 + 5413 / 15629))
  rw [h] at h1
  rw [abs_le]
  constructor <;> linarith

theorem comparable_mono {x y : ℝ} (h : x ≤ y) : Lat.comparable x ≤ Lat.comparable y := by
  unfold Lat.comparable
  exact Bins.rint_mono (by linarith)

theorem comparable_nat (d e : Nat) (h : Lat.comparable (d : ℝ) ≤ Lat.comparable (e : ℝ)) : d ≤ e := by
  by_contra hlt
  have h0 : ((e : ℝ) + 1) ≤ d := by exact_mod_cast Nat.succ_le_of_lt (Nat.lt_of_not_le hlt)
  have heq : Lat.comparable (d : ℝ) = Lat.comparable (e : ℝ) := le_antisymm h (comparable_mono (by linarith))
  have := abs_le.1 (comparable_eq _ _ heq)
  linarith

/-! ### sorting -/

/-- the bins of a list of numbers. -/
noncomputable def keyL : List ℝ → List Int
  | [] => []
  | x :: xs => Lat.comparable x :: xs.map fun y => Lat.comparable (-y)

theorem sortKey_eq (row : List ℂ) : sortKey row = keyL (row.map Complex.re ++ row.map Complex.im) := by
  unfold sortKey
  cases row.map Complex.re ++ row.map Complex.im <;> rfl

theorem neg_keys (xs ys : List ℝ) (h : (xs.map fun y => Lat.comparable (-y)) = ys.map fun y => Lat.comparable (-y)) :
    List.Forall₂ (fun x y => |x - y| ≤ 1 / 3326400) xs ys := by
  induction xs generalizing ys with
  | nil =>
    cases ys with
    | nil => exact .nil
    | cons y ys => simp at h
  | cons x xs ih =>
    cases ys with
    | nil => simp at h
    | cons y ys =>
      simp only [List.map_cons, List.cons.injEq] at h
      refine .cons ?_ (ih ys h.2)
      have := comparable_eq _ _ h.1
      rw [show x - y = -(-x - -y) by ring, abs_neg]
      exact this

theorem keyL_eq (L L' : List ℝ) (h : keyL L = keyL L') : List.Forall₂ (fun x y => |x - y| ≤ 1 / 3326400) L L' := by
  cases L with
  | nil =>
    cases L' with
    | nil => exact .nil
    | cons y ys => simp [keyL] at h
  | cons x xs =>
    cases L' with
    | nil => simp [keyL] at h
    | cons y ys =>
      simp only [keyL, List.cons.injEq] at h
      exact .cons (comparable_eq _ _ h.1) (neg_keys xs ys h.2)

/-- the table sorted. -/
theorem sortTable_map {α : Type} (f : α → List ℂ) (l : List α) (hk : (l.map fun a => sortKey (f a)).Nodup) :
    ∃ l' : List α, l'.Perm l ∧ sortTable (l.map f) = l'.map (fun a => (f a).map prune) ∧
      l'.Pairwise fun a b => lexLe (sortKey (f a)) (sortKey (f b)) = true := by
  classical
  set keys := l.map fun a => sortKey (f a) with hkeys
  have hm : (l.map f).map sortKey = keys := by rw [List.map_map]; rfl
  have hget : ∀ r ∈ keys, ∃ a, l[keys.idxOf r]? = some a ∧ sortKey (f a) = r := by
    intro r hr
    have h1 := List.getElem?_idxOf hr
    rw [hkeys, List.getElem?_map] at h1
    cases h2 : l[keys.idxOf r]? with
    | none => rw [← hkeys, h2] at h1; cases h1
    | some a =>
      refine ⟨a, rfl, ?_⟩
      rw [← hkeys, h2] at h1
      simpa using h1
  have hmap : ((uniqueRows keys).filterMap fun r => l[keys.idxOf r]?).map (fun a => sortKey (f a)) = uniqueRows keys := by
    have : ∀ u : List (List Int), (∀ r ∈ u, r ∈ keys) → (u.filterMap fun r => l[keys.idxOf r]?).map (fun a => sortKey (f a)) = u := by
      intro u
      induction u with
      | nil => intro _; rfl
      | cons r u ih =>
        intro hu
        obtain ⟨a, ha, hr⟩ := hget r (hu r (by simp))
        rw [List.filterMap_cons, ha]
        simp only [List.map_cons, hr, ih fun r' h' => hu r' (by simp [h'])]
    exact this _ fun r hr => (mem_uniqueRows keys r).1 hr
  have hln : l.Nodup := hk.of_map
  refine ⟨(uniqueRows keys).filterMap fun r => l[keys.idxOf r]?, ?_, ?_, ?_⟩
  · refine (List.perm_ext_iff_of_nodup (List.Nodup.of_map (fun a => sortKey (f a)) ?_) hln).2 fun a => ?_
    · rw [hmap]
      exact uniqueRows_nodup keys
    · rw [List.mem_filterMap]
      constructor
      · rintro ⟨r, -, h⟩
        exact List.mem_of_getElem? h
      · intro ha
        have hr : sortKey (f a) ∈ keys := List.mem_map.2 ⟨a, ha, rfl⟩
        refine ⟨sortKey (f a), (mem_uniqueRows keys _).2 hr, ?_⟩
        obtain ⟨b, hb, hba⟩ := hget _ hr
        rw [hb]
        have := List.inj_on_of_nodup_map hk (List.mem_of_getElem? hb) ha hba
        rw [this]
  · unfold sortTable uniqueIndex
    rw [hm, List.filterMap_map]
    rw [List.map_filterMap, List.map_filterMap]
    congr 1
    funext r
    simp only [Function.comp, List.getElem?_map, Option.map_map]
    rfl
  · have := sortBy_pairwise lexLe_trans lexLe_total keys.dedup
    change (uniqueRows keys).Pairwise _ at this
    rw [← hmap, List.pairwise_map] at this
    exact this

/-! ### rows -/

theorem headD_finRange {k : Nat} (hk : 0 < k) (f : Fin k → ℂ) : ((List.finRange k).map f).headD 0 = f ⟨0, hk⟩ := by
  obtain ⟨m, rfl⟩ : ∃ m, k = m + 1 := ⟨k - 1, by omega⟩
  simp [List.finRange_succ]

theorem mapM_some {α β : Type} (l : List α) (f : α → Option β) (g : α → β) (h : ∀ a ∈ l, f a = some (g a)) :
    l.mapM f = some (l.map g) := by
  induction l with
  | nil => rfl
  | cons a l ih =>
    rw [List.mapM_cons, h a (by simp), ih fun b hb => h b (by simp [hb])]
    rfl

/-- values of a class function by class. -/
noncomputable def rowC [DecidableEq G] (hT : IsTable elems T) (hall : ∀ g, g ∈ elems) (χ : G → ℂ) : List ℂ :=
  (List.finRange (numClasses T)).map fun c => χ (Classical.choose ((kappa_classes hT hall).surj c))

theorem choose_val [DecidableEq G] (hT : IsTable elems T) (hall : ∀ g, g ∈ elems) (χ : G → ℂ) (hχ : IsClassFn χ) (g : G) :
    χ (Classical.choose ((kappa_classes hT hall).surj (kappa hT hall g))) = χ g := by
  obtain ⟨x, hx⟩ := ((kappa_classes hT hall).conj _ _).1 (Classical.choose_spec ((kappa_classes hT hall).surj (kappa hT hall g)))
  have := hχ x (Classical.choose ((kappa_classes hT hall).surj (kappa hT hall g)))
  rw [← hx] at this
  exact this.symm

theorem class_sum_size [DecidableEq G] (hT : IsTable elems T) (hall : ∀ g, g ∈ elems) (F : Fin (numClasses T) → ℝ) :
    ∑ c, F c * (classSize T c).re = ∑ g, F (kappa hT hall g) := by
  have h1 : ∀ c : Fin (numClasses T), (classSize T c).re = ∑ g : G, if kappa hT hall g = c then (1 : ℝ) else 0 := by
    intro c
    rw [classSize_eq hT hall, size_eq_card, Complex.natCast_re]
    simp
  simp only [h1, mul_sum]
  rw [sum_comm]
  refine sum_congr rfl fun g _ => ?_
  simp

/-- the row of an eigenvector proportional to a normalised class function. -/
theorem rowOf_eq [DecidableEq G] (hT : IsTable elems T) (hall : ∀ g, g ∈ elems) (g0 : G) (hg0 : elems[0]? = some g0)
    (v : Fin (numClasses T) → ℂ) (χ : G → ℂ) (hχ : IsClassFn χ) (hn : ∑ g, χ g * (starRingEnd ℂ) (χ g) = Fintype.card G)
    (c : ℂ) (hc : c ≠ 0) (hv : ∀ g, toFn (kappa hT hall) v g = c * χ g) :
    rowOf T v = if χ g0 = 0 then none else some (rowC hT hall fun g => χ g / (χ g0 / ‖χ g0‖)) := by
  have hk := kappa_classes hT hall
  have hpos : 0 < numClasses T := Nat.lt_of_le_of_lt (Nat.zero_le _) (kappa hT hall g0).2
  have hlen : (T.length : ℝ) = Fintype.card G := by
    rw [hT.length]
    have := Fintype.card_congr (List.Nodup.getEquivOfForallMemList elems hT.nodup hall)
    rw [Fintype.card_fin] at this
    rw [this]
  have ht : ∀ d : Fin (numClasses T), v d / classSize T d = c * χ (Classical.choose (hk.surj d)) := by
    intro d
    have h1 := hv (Classical.choose (hk.surj d))
    unfold toFn at h1
    rw [Classical.choose_spec (hk.surj d)] at h1
    rw [classSize_eq hT hall]
    exact h1
  have hnn : ∑ g, ‖χ g‖ ^ 2 = (Fintype.card G : ℝ) := by
    have : ((∑ g, ‖χ g‖ ^ 2 : ℝ) : ℂ) = ((Fintype.card G : ℝ) : ℂ) := by
      push_cast
      rw [← hn]
      exact sum_congr rfl fun g _ => by rw [Complex.mul_conj, Complex.normSq_eq_norm_sq]; push_cast; rfl
    exact_mod_cast this
  have hnorm : Real.sqrt (∑ d : Fin (numClasses T), ‖v d / classSize T d‖ ^ 2 * (classSize T d).re) =
      ‖c‖ * Real.sqrt (Fintype.card G) := by
    rw [class_sum_size hT hall fun d => ‖v d / classSize T d‖ ^ 2]
    have : ∀ g, ‖v (kappa hT hall g) / classSize T (kappa hT hall g)‖ ^ 2 = ‖c‖ ^ 2 * ‖χ g‖ ^ 2 := by
      intro g
      rw [ht, choose_val hT hall χ hχ g, norm_mul, mul_pow]
    rw [sum_congr rfl fun g _ => this g, ← mul_sum, hnn, Real.sqrt_mul (by positivity), Real.sqrt_sq (norm_nonneg _)]
  have hcard : (0 : ℝ) < Real.sqrt (Fintype.card G) := Real.sqrt_pos.2 (by exact_mod_cast Fintype.card_pos)
  have hcn : (0 : ℝ) < ‖c‖ := norm_pos_iff.2 hc
  have hcard' : ((Real.sqrt (Fintype.card G) : ℝ) : ℂ) ≠ 0 := by exact_mod_cast hcard.ne'
  have hcn' : ((‖c‖ : ℝ) : ℂ) ≠ 0 := by exact_mod_cast hcn.ne'
  have hunit : unitRow T v = (List.finRange (numClasses T)).map fun d =>
      c * χ (Classical.choose (hk.surj d)) / ((‖c‖ : ℂ) * (Real.sqrt (Fintype.card G) : ℂ)) := by
    unfold unitRow
    simp only
    rw [hnorm]
    refine List.map_congr_left fun d _ => ?_
    rw [ht]
    push_cast
    rfl
  have h0 : (⟨0, hpos⟩ : Fin (numClasses T)) = kappa hT hall g0 := Fin.ext (kappa_first hT hall g0 hg0).symm
  have hhead : (unitRow T v).headD 0 = c * χ g0 / ((‖c‖ : ℂ) * (Real.sqrt (Fintype.card G) : ℂ)) := by
    rw [hunit, headD_finRange hpos, h0, choose_val hT hall χ hχ]
  unfold rowOf
  rw [hhead]
  by_cases hz : χ g0 = 0
  · rw [if_pos hz, hz, mul_zero, zero_div]
    simp [cplxSign]
  · have hzn : (0 : ℝ) < ‖χ g0‖ := norm_pos_iff.2 hz
    have hzn' : ((‖χ g0‖ : ℝ) : ℂ) ≠ 0 := by exact_mod_cast hzn.ne'
    have hne : c * χ g0 / ((‖c‖ : ℂ) * (Real.sqrt (Fintype.card G) : ℂ)) ≠ 0 :=
      div_ne_zero (mul_ne_zero hc hz) (mul_ne_zero hcn' hcard')
    rw [if_neg hz, cplxSign, if_neg hne]
    simp only
    congr 1
    rw [hunit, List.map_map]
    unfold rowC
    refine List.map_congr_left fun d _ => ?_
    simp only [Function.comp, norm_div, norm_mul, Complex.norm_real, Real.norm_eq_abs, abs_of_pos hcn, abs_of_pos hcard, hlen]
    push_cast
    field_simp

/-! ### the table -/

/-- the contract of `np.linalg.eig` (_group.py:214): columns `V j` are eigenvectors. -/
def IsEig {k : Nat} (M : Matrix (Fin k) (Fin k) ℂ) (w : Fin k → ℂ) (V : Fin k → Fin k → ℂ) : Prop :=
  M.charpoly = ∏ j, (Polynomial.X - Polynomial.C (w j)) ∧ ∀ j, V j ≠ 0 ∧ M.mulVec (V j) = w j • V j

theorem irr_classFn {χ : G → ℂ} (h : IsIrrChar χ) : IsClassFn χ := by
  obtain ⟨d, hd, -, -, hs⟩ := h.facts
  intro x g
  have := hs.conj_inv x g
  have hd' : (d : ℂ) ≠ 0 := Nat.cast_ne_zero.2 (by omega)
  exact (div_left_inj' hd').1 this

/-- the eigenvectors are those of the irreducible characters. -/
theorem eig_chars [DecidableEq G] (hT : IsTable elems T) (hall : ∀ g, g ∈ elems) (a : Nat → ℝ) (w : Fin (numClasses T) → ℂ)
    (V : Fin (numClasses T) → Fin (numClasses T) → ℂ) (heig : IsEig (classMatrix T a) w V) (hw : Function.Injective w) :
    ∃ X : Fin (numClasses T) → G → ℂ, (∀ j, IsIrrChar (X j)) ∧ (∀ χ, IsIrrChar χ → ∃ j, X j = χ) ∧ Function.Injective X ∧
      ∀ j, ∃ c : ℂ, c ≠ 0 ∧ ∀ g, toFn (kappa hT hall) (V j) g = c * X j g := by
  have hk := kappa_classes hT hall
  have hV := heig.2
  rw [classMatrix_eq hT hall] at hV
  have hex : ∀ j, ∃ χ : G → ℂ, IsIrrChar χ ∧ ∃ c : ℂ, c ≠ 0 ∧ ∀ g, toFn (kappa hT hall) (V j) g = c * χ g := by
    intro j
    obtain ⟨h1, h2⟩ := eigen_spherical hk _ w V hV hw j
    obtain ⟨d, χ, hd, hχ, hdχ⟩ := h2.irrChar
    have hd' : (d : ℂ) ≠ 0 := Nat.cast_ne_zero.2 (by omega)
    refine ⟨χ, hχ, toFn (kappa hT hall) (V j) 1 / d, div_ne_zero h1 hd', fun g => ?_⟩
    rw [hdχ]
    field_simp
  choose X hX c hc hcX using hex
  have hsurj : ∀ χ, IsIrrChar χ → ∃ j, X j = χ := by
    intro χ hχ
    obtain ⟨d, hd, -, -, hs⟩ := hχ.facts
    have hd' : (d : ℂ) ≠ 0 := Nat.cast_ne_zero.2 (by omega)
    obtain ⟨h1, h2⟩ := spherical_eigen hk (fun g => (a (elems.idxOf g) : ℂ)) hs
    obtain ⟨j, e, he, -, hu⟩ := eigen_unique _ w V hV hw _ h1 _ h2
    refine ⟨j, ((hχ.eq_of_smul (hX j) (d * (e * c j)) fun g => ?_)).symm⟩
    have h3 := congrFun (toFn_ofFn hk (fun g => χ g / d) fun h x => hs.conj_inv h x) g
    rw [hu, toFn_smul] at h3
    simp only [Pi.smul_apply, smul_eq_mul, hcX] at h3
    field_simp at h3
    linear_combination -h3
  refine ⟨X, hX, hsurj, ?_, fun j => ⟨c j, hc j, hcX j⟩⟩
  intro i j hij
  have h1 : V i = (c i / c j) • V j := by
    apply toFn_injective hk
    rw [toFn_smul]
    funext g
    simp only [Pi.smul_apply, smul_eq_mul, hcX, hij]
    field_simp [hc j]
  have h2 := (hV i).2
  rw [h1, Matrix.mulVec_smul, (hV j).2] at h2
  have h3 : (w j - w i) • V j = 0 := by
    have h4 : (c i / c j) • (w j - w i) • V j = 0 := by
      rw [sub_smul, smul_sub, h2, smul_comm (w i), sub_self]
    exact (smul_eq_zero.1 h4).resolve_left (div_ne_zero (hc i) (hc j))
  have h4 := (smul_eq_zero.1 h3).resolve_right (hV j).1
  exact (hw (sub_eq_zero.1 h4)).symm

/-- the keys of different characters are different. -/
theorem key_injective [DecidableEq G] (hT : IsTable elems T) (hall : ∀ g, g ∈ elems) {χ ψ : G → ℂ} (hχ : IsIrrChar χ)
    (hψ : IsIrrChar ψ) (h : sortKey (rowC hT hall χ) = sortKey (rowC hT hall ψ)) : χ = ψ := by
  by_contra hne
  obtain ⟨g, hg⟩ := hχ.separated hψ hne
  rw [sortKey_eq, sortKey_eq] at h
  have hf := keyL_eq _ _ h
  rw [List.forall₂_iff_get] at hf
  have hlen : ∀ χ, (rowC hT hall χ).length = numClasses T := fun χ => by simp [rowC]
  have hval : ∀ χ, IsIrrChar χ → ∀ i, (hi : i < (rowC hT hall χ).length) → i = (kappa hT hall g : Nat) → (rowC hT hall χ)[i] = χ g := by
    intro χ hχ i hi he
    subst he
    simp only [rowC, List.getElem_map, List.getElem_finRange]
    exact choose_val hT hall χ (irr_classFn hχ) g
  have hk := (kappa hT hall g).2
  rcases hg with hg | hg
  · have := hf.2 (kappa hT hall g) (by simp [hlen]; omega) (by simp [hlen]; omega)
    simp only [List.get_eq_getElem] at this
    rw [List.getElem_append_left (by simp [hlen]), List.getElem_append_left (by simp [hlen]), List.getElem_map, List.getElem_map,
      hval χ hχ _ (by simp [hlen]) rfl, hval ψ hψ _ (by simp [hlen]) rfl] at this
    norm_num at this
    linarith
  · have := hf.2 (numClasses T + kappa hT hall g) (by simp [hlen]) (by simp [hlen])
    simp only [List.get_eq_getElem] at this
    rw [List.getElem_append_right (by simp [hlen]), List.getElem_append_right (by simp [hlen]), List.getElem_map, List.getElem_map,
      hval χ hχ _ (by simp [hlen]) (by simp [hlen]), hval ψ hψ _ (by simp [hlen]) (by simp [hlen])] at this
    norm_num at this
    linarith

/-- the first entry of the key. -/
theorem key_head [DecidableEq G] (hT : IsTable elems T) (hall : ∀ g, g ∈ elems) (g0 : G) (hg0 : elems[0]? = some g0) {χ : G → ℂ}
    (hχ : IsClassFn χ) : ∃ xs, sortKey (rowC hT hall χ) = Lat.comparable (χ g0).re :: xs := by
  have hpos : 0 < numClasses T := Nat.lt_of_le_of_lt (Nat.zero_le _) (kappa hT hall g0).2
  have h0 : (⟨0, hpos⟩ : Fin (numClasses T)) = kappa hT hall g0 := Fin.ext (kappa_first hT hall g0 hg0).symm
  have h1 := headD_finRange hpos fun c => χ (Classical.choose ((kappa_classes hT hall).surj c))
  rw [h0, choose_val hT hall χ hχ] at h1
  have hne : rowC hT hall χ ≠ [] := by
    intro h
    have : (rowC hT hall χ).length = 0 := by rw [h]; rfl
    simp [rowC] at this
    omega
  obtain ⟨z, zs, hz⟩ := List.exists_cons_of_ne_nil hne
  have h2 : z = χ g0 := by
    change (rowC hT hall χ).headD 0 = χ g0 at h1
    rw [hz] at h1
    exact h1
  rw [sortKey_eq, hz, List.map_cons, List.cons_append, h2]
  exact ⟨_, rfl⟩

/-- the character of the trivial representation. -/
theorem irr_one : IsIrrChar (fun _ : G => (1 : ℂ)) := by
  have hs : Spherical (fun _ : G => (1 : ℂ)) := ⟨rfl, fun r g => by simp⟩
  obtain ⟨d, χ, hd, hχ, hdχ⟩ := hs.irrChar
  obtain ⟨e, he, he1, hn, -⟩ := hχ.facts
  have : χ = fun _ => (1 : ℂ) := by
    simp only [hdχ, mul_one, map_natCast, sum_const, card_univ, nsmul_eq_mul] at hn
    have h1 : (Fintype.card G : ℂ) * ((d : ℂ) * d) = Fintype.card G * 1 := by rw [hn, mul_one]
    have h2 := mul_left_cancel₀ card_ne h1
    have h3 : d * d = 1 := by exact_mod_cast h2
    have h4 : d = 1 := Nat.eq_one_of_mul_eq_one_left h3
    funext g
    rw [hdχ, h4]
    simp
  rw [← this]
  exact hχ

/-- values of characters are bounded by the dimension. -/
theorem Spherical.bound {φ : G → ℂ} (hφ : Spherical φ) (g : G) : ‖φ g‖ ≤ 1 := by
  obtain ⟨m, -, hm⟩ := Finset.exists_max_image univ (fun g => ‖φ g‖) ⟨1, mem_univ _⟩
  have hc : (0 : ℝ) < Fintype.card G := by exact_mod_cast Fintype.card_pos
  have h1 : (Fintype.card G : ℝ) * (‖φ m‖ * ‖φ m‖) ≤ Fintype.card G * ‖φ m‖ := by
    calc (Fintype.card G : ℝ) * (‖φ m‖ * ‖φ m‖) = ‖∑ h, φ (m * (h * m * h⁻¹))‖ := by
          rw [hφ.eqn, norm_mul, norm_mul, Complex.norm_natCast]
      _ ≤ ∑ h, ‖φ (m * (h * m * h⁻¹))‖ := norm_sum_le _ _
      _ ≤ ∑ _h : G, ‖φ m‖ := sum_le_sum fun h _ => hm _ (mem_univ _)
      _ = _ := by rw [sum_const, card_univ, nsmul_eq_mul]
  have h2 : ‖φ m‖ * ‖φ m‖ ≤ ‖φ m‖ := le_of_mul_le_mul_left h1 hc
  have h3 : ‖φ m‖ ≤ 1 := by
    by_contra hlt
    push Not at hlt
    nlinarith
  exact (hm g (mem_univ _)).trans h3

theorem lexLe_append (A A' B B' : List Int) (h : List.Forall₂ (· ≤ ·) A A') (hne : A ≠ A') : lexLe (A ++ B) (A' ++ B') = true := by
  induction h with
  | nil => exact absurd rfl hne
  | @cons x y xs ys hxy _ ih =>
    simp only [List.cons_append, lexLe, Bool.or_eq_true, Bool.and_eq_true, decide_eq_true_eq]
    by_cases hlt : x < y
    · exact Or.inl hlt
    · have hxy' : x = y := by omega
      refine Or.inr ⟨hxy', ih fun h => hne (by rw [hxy', h])⟩

/-- the trivial character comes first. -/
theorem one_least [DecidableEq G] (hT : IsTable elems T) (hall : ∀ g, g ∈ elems) (h1 : elems[0]? = some 1) {ψ : G → ℂ}
    (hψ : IsIrrChar ψ) : lexLe (sortKey (rowC hT hall fun _ => 1)) (sortKey (rowC hT hall ψ)) = true := by
  by_cases he : ψ = fun _ => 1
  · rw [he]
    have := lexLe_total (sortKey (rowC hT hall fun _ => 1)) (sortKey (rowC hT hall fun _ => 1))
    simpa using this
  obtain ⟨d, hd, hd1, hn, hs⟩ := hψ.facts
  obtain ⟨xs, hx⟩ := key_head hT hall 1 h1 (irr_classFn (irr_one (G := G)))
  obtain ⟨ys, hy⟩ := key_head hT hall 1 h1 (irr_classFn hψ)
  by_cases hd2 : d = 1
  · -- one dimension: compare the real parts
    have hb : ∀ g, ‖ψ g‖ ≤ 1 := by
      intro g
      have := Spherical.bound hs g
      rw [hd2] at this
      simpa using this
    have hpos : 0 < numClasses T := Nat.lt_of_le_of_lt (Nat.zero_le _) (kappa hT hall 1).2
    have hlen : ∀ χ, (rowC hT hall χ).length = numClasses T := fun χ => by simp [rowC]
    have hsplit : ∀ χ : G → ℂ, sortKey (rowC hT hall χ) =
        keyL ((rowC hT hall χ).map Complex.re) ++ ((rowC hT hall χ).map Complex.im).map fun y => Lat.comparable (-y) := by
      intro χ
      rw [sortKey_eq]
      have : ((rowC hT hall χ).map Complex.re) ≠ [] := by
        intro h
        have := congrArg List.length h
        simp [hlen] at this
        omega
      obtain ⟨z, zs, hz⟩ := List.exists_cons_of_ne_nil this
      rw [hz]
      simp [keyL]
    rw [hsplit, hsplit]
    apply lexLe_append
    · obtain ⟨m, hm⟩ : ∃ m, numClasses T = m + 1 := ⟨numClasses T - 1, by omega⟩
      have hz : ∀ χ : G → ℂ, IsClassFn χ → ∃ zs : List ℂ, rowC hT hall χ = χ 1 :: zs ∧ (∀ z ∈ zs, ∃ g, z = χ g) ∧ zs.length = m := by
        intro χ hχ
        have h2 := headD_finRange hpos fun c => χ (Classical.choose ((kappa_classes hT hall).surj c))
        have h0 : (⟨0, hpos⟩ : Fin (numClasses T)) = kappa hT hall 1 := Fin.ext (kappa_first hT hall 1 h1).symm
        rw [h0, choose_val hT hall χ hχ] at h2
        change (rowC hT hall χ).headD 0 = χ 1 at h2
        cases hr : rowC hT hall χ with
        | nil =>
          have := hlen χ
          rw [hr] at this
          simp at this
          omega
        | cons z zs =>
          rw [hr] at h2
          refine ⟨zs, by rw [show z = χ 1 from h2], fun y hy => ?_, ?_⟩
          · have : y ∈ rowC hT hall χ := by rw [hr]; exact List.mem_cons_of_mem _ hy
            obtain ⟨c, -, rfl⟩ := List.mem_map.1 this
            exact ⟨_, rfl⟩
          · have := hlen χ
            rw [hr] at this
            simp at this
            omega
      obtain ⟨zs, h3, h4, h5⟩ := hz _ (irr_classFn (irr_one (G := G)))
      obtain ⟨us, h6, h7, h8⟩ := hz _ (irr_classFn hψ)
      rw [h3, h6]
      simp only [List.map_cons, keyL]
      refine .cons ?_ ?_
      · rw [hd1, hd2]
        simp
      · rw [List.forall₂_iff_get]
        refine ⟨by simp [h5, h8], fun i hi hi' => ?_⟩
        simp only [List.get_eq_getElem, List.getElem_map]
        apply comparable_mono
        simp only [List.length_map] at hi hi'
        obtain ⟨g, hg⟩ := h4 zs[i] (List.getElem_mem _)
        obtain ⟨g', hg'⟩ := h7 us[i] (List.getElem_mem _)
        rw [hg, hg']
        have := (Complex.re_le_norm (ψ g')).trans (hb g')
        simp only [Complex.one_re]
        linarith
    · intro heq
      have hf := keyL_eq _ _ heq
      rw [List.forall₂_iff_get] at hf
      obtain ⟨g, hg⟩ := hψ.separated (irr_one (G := G)) he
      have hk := (kappa hT hall g).2
      have := hf.2 (kappa hT hall g) (by simp [hlen]) (by simp [hlen])
      simp only [List.get_eq_getElem, List.getElem_map, rowC, List.getElem_finRange] at this
      have h9 := choose_val hT hall ψ (irr_classFn hψ) g
      simp only [Fin.eta, Fin.cast_mk] at this
      rw [h9] at this
      simp only [Complex.one_re] at this
      have hab := abs_le.1 this
      have hn2 : (ψ g).re * (ψ g).re + (ψ g).im * (ψ g).im ≤ 1 := by
        have h10 := hb g
        have h11 : Complex.normSq (ψ g) ≤ 1 := by
          rw [Complex.normSq_eq_norm_sq]
          nlinarith [norm_nonneg (ψ g)]
        rwa [Complex.normSq_apply] at h11
      rcases hg with hg | hg
      · rw [abs_sub_comm] at hg
        simp only [Complex.one_re] at hg
        norm_num at this
        linarith
      · simp only [Complex.one_im, sub_zero] at hg
        have h12 : 1 ≤ (ψ g).im * (ψ g).im := by
          rw [← abs_mul_abs_self]
          nlinarith [abs_nonneg (ψ g).im]
        have h13 : (ψ g).re ≥ 1 - 1 / 3326400 := by linarith [hab.2]
        nlinarith
  · rw [hx, hy]
    simp only [lexLe, Bool.or_eq_true, decide_eq_true_eq, Complex.one_re]
    left
    rw [hd1, Complex.natCast_re]
    by_contra hlt
    have := comparable_nat d 1 (by push_cast; omega)
    omega

/-- `character_table()`, with the identity listed first and distinct eigenvalues: its rows are the irreducible characters (entries
    with parts below 1e-8 set to zero), every one of them once, as many as there are conjugacy classes, in the order of their
    dimensions, the trivial character first; `character_table_by_class` lists their values on the representatives of the classes. -/
theorem C150_table (hT : IsTable elems T) (hall : ∀ g, g ∈ elems) (h1 : elems[0]? = some 1) (a : Nat → ℝ)
    (w : Fin (numClasses T) → ℂ) (V : Fin (numClasses T) → Fin (numClasses T) → ℂ) (heig : IsEig (classMatrix T a) w V)
    (hw : Function.Injective w) :
    ∃ rows : List (G → ℂ), characterTable T V = some (rows.map fun χ => elems.map fun g => prune (χ g))
      ∧ characterTableByClass T V =
        some (rows.map fun χ => (conjugacyClasses T).2.1.map fun r => prune (χ (elems.getD r 1)))
      ∧ (∀ χ, χ ∈ rows ↔ IsIrrChar χ) ∧ rows.Nodup ∧ rows.length = numClasses T
      ∧ rows.Pairwise (fun χ ψ => (χ 1).re ≤ (ψ 1).re) ∧ rows.head? = some fun _ => 1 := by
  classical
  obtain ⟨X, hX, hsurj, hinj, hV⟩ := eig_chars hT hall a w V heig hw
  have hrow : ∀ j ∈ List.finRange (numClasses T), rowOf T (V j) = some (rowC hT hall (X j)) := by
    intro j _
    obtain ⟨c, hc, hcX⟩ := hV j
    obtain ⟨d, hd, hd1, hn, -⟩ := (hX j).facts
    have hd' : (d : ℂ) ≠ 0 := Nat.cast_ne_zero.2 (by omega)
    rw [rowOf_eq hT hall 1 h1 (V j) (X j) (irr_classFn (hX j)) hn c hc hcX, if_neg (by rw [hd1]; exact hd'), hd1]
    congr 2
    funext g
    simp [hd']
  have hmapM := mapM_some _ _ _ hrow
  have hnd : ((List.finRange (numClasses T)).map fun j => sortKey (rowC hT hall (X j))).Nodup := by
    refine (List.nodup_map_iff_inj_on (List.nodup_finRange _)).2 fun i _ j _ h => ?_
    exact hinj (key_injective hT hall (hX i) (hX j) h)
  have hnd' : (((List.finRange (numClasses T)).map X).map fun χ => sortKey (rowC hT hall χ)).Nodup := by
    rw [List.map_map]
    exact hnd
  obtain ⟨rows, hp, hs, hpw⟩ := sortTable_map (rowC hT hall) ((List.finRange (numClasses T)).map X) hnd'
  have hmem : ∀ χ, χ ∈ rows ↔ IsIrrChar χ := by
    intro χ
    rw [hp.mem_iff, List.mem_map]
    constructor
    · rintro ⟨j, -, rfl⟩
      exact hX j
    · intro h
      obtain ⟨j, hj⟩ := hsurj χ h
      exact ⟨j, List.mem_finRange j, hj⟩
  have hby : characterTableByClass T V = some (rows.map fun χ => (rowC hT hall χ).map prune) := by
    unfold characterTableByClass
    rw [hmapM]
    simp only
    rw [← hs, List.map_map]
    rfl
  have hdim : ∀ χ ∈ rows, ∃ d : Nat, χ 1 = d := fun χ hχ => by
    obtain ⟨d, -, hd, -⟩ := ((hmem χ).1 hχ).facts
    exact ⟨d, hd⟩
  refine ⟨rows, ?_, ?_, hmem, hp.nodup_iff.2 hnd'.of_map, by rw [hp.length_eq]; simp, ?_, ?_⟩
  · unfold characterTable
    rw [hby]
    simp only
    congr 1
    rw [List.map_map]
    refine List.map_congr_left fun χ hχ => ?_
    simp only [Function.comp]
    rw [inverse_eq hT hall, List.map_map]
    refine List.map_congr_left fun g _ => ?_
    simp only [Function.comp, rowC, List.map_map]
    rw [List.getD_eq_getElem?_getD, List.getElem?_map, List.getElem?_eq_getElem (by simp)]
    simp only [List.getElem_finRange, Option.map_some, Option.getD_some, Function.comp]
    congr 1
    exact choose_val hT hall χ (irr_classFn ((hmem χ).1 hχ)) g
  · rw [hby]
    congr 1
    refine List.map_congr_left fun χ hχ => ?_
    rw [rowC, List.map_map]
    obtain ⟨hl, hcl⟩ := C41_classes hT
    apply List.ext_getElem?
    intro i
    by_cases hi : i < numClasses T
    · have hi2 : i < (conjugacyClasses T).2.1.length := by rw [← hl]; exact hi
      rw [List.getElem?_map, List.getElem?_map, List.getElem?_eq_getElem (by simpa using hi), List.getElem?_eq_getElem hi2]
      simp only [Option.map_some, Function.comp, List.getElem_finRange]
      congr 2
      obtain ⟨hlr, ρ, hρ, hv⟩ := hcl i _ _ (List.getElem?_eq_getElem hi) (List.getElem?_eq_getElem hi2)
      rw [List.getD_eq_getElem?_getD, hρ, Option.getD_some]
      obtain ⟨row, ρ', h2, -, h3, hv'⟩ := row_entry hT hall ⟨i, hi⟩
      have hrr : (conjugacyClasses T).1[i]'hi = row := by
        have : some ((conjugacyClasses T).1[i]'hi) = some row := by rw [← h2]; exact (List.getElem?_eq_getElem hi).symm
        exact Option.some.inj this
      have hk : kappa hT hall ρ = ⟨i, hi⟩ := by
        rw [← h3, eq_comm, kappa_conj hT hall]
        by_contra hn
        have h4 := (hv' _ ρ hρ).2 hn
        rw [← hrr, ((hv _ ρ hρ).1 (conj_refl hT (hall ρ))).1] at h4
        simp at h4
      have h5 := choose_val hT hall χ (irr_classFn ((hmem χ).1 hχ)) ρ
      rw [hk] at h5
      exact h5
    · rw [List.getElem?_eq_none (by simp; omega), List.getElem?_eq_none (by simp [← hl]; exact Nat.le_of_not_lt hi)]
  · refine hpw.imp_of_mem fun {χ ψ} hχ hψ h => ?_
    obtain ⟨d, hd⟩ := hdim χ hχ
    obtain ⟨e, he⟩ := hdim ψ hψ
    obtain ⟨xs, hx⟩ := key_head hT hall 1 h1 (irr_classFn ((hmem χ).1 hχ))
    obtain ⟨ys, hy⟩ := key_head hT hall 1 h1 (irr_classFn ((hmem ψ).1 hψ))
    rw [hx, hy] at h
    have := lexLe_head _ _ _ _ h
    rw [hd, he, Complex.natCast_re, Complex.natCast_re] at this ⊢
    exact_mod_cast comparable_nat d e this
  · have hone : (fun _ : G => (1 : ℂ)) ∈ rows := (hmem _).2 irr_one
    cases hr : rows with
    | nil => rw [hr] at hone; simp at hone
    | cons χ rest =>
      rw [hr] at hone hpw
      simp only [List.head?_cons, Option.some.injEq]
      rcases List.mem_cons.1 hone with h | h
      · exact h.symm
      · have h2 := (List.pairwise_cons.1 hpw).1 _ h
        have hχ : IsIrrChar χ := (hmem χ).1 (by rw [hr]; simp)
        exact key_injective hT hall hχ irr_one (lexLe_antisymm _ _ h2 (one_least hT hall h1 hχ))

/-- what `prune_zeros` changes is at most 1e-8 in each part, and zero or larger parts are kept. -/
theorem C150_prune (z : ℂ) : |(prune z).re - z.re| ≤ 1 / 10 ^ 8 ∧ |(prune z).im - z.im| ≤ 1 / 10 ^ 8
    ∧ ((z.re = 0 ∨ 1 / 10 ^ 8 < |z.re|) → (z.im = 0 ∨ 1 / 10 ^ 8 < |z.im|) → prune z = z) := by
  refine ⟨?_, ?_, ?_⟩
  · unfold prune
    simp only
    split
    · rw [zero_sub, abs_neg]; assumption
    · simp
  · unfold prune
    simp only
    split
    · rw [zero_sub, abs_neg]; assumption
    · simp
  · intro hr hi
    apply Complex.ext
    · unfold prune
      simp only
      rcases hr with h | h
      · simp [h]
      · rw [if_neg (not_le.2 h)]
    · unfold prune
      simp only
      rcases hi with h | h
      · simp [h]
      · rw [if_neg (not_le.2 h)]

/-- a vector of `n` numbers as a function of the index. -/
def ofVec {n : Nat} (a : Fin n → ℝ) (i : Nat) : ℝ := if h : i < n then a ⟨i, h⟩ else 0

/-- For almost all vectors `a` of real numbers the eigenvalues of the class matrix are distinct, whatever `eig` returns. -/
theorem C150_generic (hT : IsTable elems T) (hall : ∀ g, g ∈ elems) :
    ∀ᵐ a : Fin elems.length → ℝ, ∀ w V, IsEig (classMatrix T (ofVec a)) w V → Function.Injective w := by
  classical
  let idx : Fin elems.length ≃ G := List.Nodup.getEquivOfForallMemList elems hT.nodup hall
  filter_upwards [generic (kappa_classes hT hall) idx] with a ha w V heig
  have hvec : (fun g => (ofVec a (elems.idxOf g) : ℂ)) = fun g => (a (idx.symm g) : ℂ) := by
    funext g
    have hlt : elems.idxOf g < elems.length := List.idxOf_lt_length_iff.2 (hall g)
    have : idx.symm g = ⟨elems.idxOf g, hlt⟩ := by
      rw [Equiv.symm_apply_eq]
      simp [idx]
    rw [this, ofVec, dif_pos hlt]
  have h := heig.1
  rw [classMatrix_eq hT hall, hvec] at h
  exact eigenvalues_distinct (kappa_classes hT hall) _ ha w h

/-- And there are such eigenvectors. -/
theorem C150_exists (hT : IsTable elems T) (hall : ∀ g, g ∈ elems) :
    ∃ a w V, IsEig (classMatrix T a) w V ∧ Function.Injective w := by
  classical
  let idx : Fin elems.length ≃ G := List.Nodup.getEquivOfForallMemList elems hT.nodup hall
  have hk := kappa_classes hT hall
  obtain ⟨a, ha⟩ := (generic hk idx).exists
  have hvec : (fun g => (ofVec a (elems.idxOf g) : ℂ)) = fun g => (a (idx.symm g) : ℂ) := by
    funext g
    have hlt : elems.idxOf g < elems.length := List.idxOf_lt_length_iff.2 (hall g)
    have : idx.symm g = ⟨elems.idxOf g, hlt⟩ := by
      rw [Equiv.symm_apply_eq]
      simp [idx]
    rw [this, ofVec, dif_pos hlt]
  obtain ⟨e, -⟩ := spherical_count hk
  have hM : classMatrix T (ofVec a) = clsMatrix (kappa hT hall) fun g => (a (idx.symm g) : ℂ) := by
    rw [classMatrix_eq hT hall, hvec]
  have hinj : Function.Injective fun j => ∑ x, (a (idx.symm x) : ℂ) * (e j).1 x := by
    intro i j h
    exact e.injective (Subtype.ext (ha _ _ (e i).2 (e j).2 h))
  have hvecs : ∀ j, ofFn hk (e j).1 ≠ 0 ∧ (classMatrix T (ofVec a)).mulVec (ofFn hk (e j).1) =
      (∑ x, (a (idx.symm x) : ℂ) * (e j).1 x) • ofFn hk (e j).1 := by
    intro j
    rw [hM]
    exact spherical_eigen hk _ (e j).2
  refine ⟨ofVec a, _, fun j => ofFn hk (e j).1, ⟨?_, hvecs⟩, hinj⟩
  have hmonic : (classMatrix T (ofVec a)).charpoly.Monic := Matrix.charpoly_monic _
  have hroots : ∀ j, (classMatrix T (ofVec a)).charpoly.IsRoot (∑ x, (a (idx.symm x) : ℂ) * (e j).1 x) := by
    intro j
    have h3 : Module.End.HasEigenvalue (Matrix.toLin' (classMatrix T (ofVec a))) (∑ x, (a (idx.symm x) : ℂ) * (e j).1 x) :=
      Module.End.hasEigenvalue_of_hasEigenvector (x := ofFn hk (e j).1)
        ⟨Module.End.mem_eigenspace_iff.2 (by rw [Matrix.toLin'_apply]; exact (hvecs j).2), (hvecs j).1⟩
    have := Module.End.hasEigenvalue_iff_isRoot_charpoly (Matrix.toLin' (classMatrix T (ofVec a))) _ |>.1 h3
    rwa [Matrix.charpoly_toLin'] at this
  have hdvd : (∏ j, (Polynomial.X - Polynomial.C (∑ x, (a (idx.symm x) : ℂ) * (e j).1 x))) ∣ (classMatrix T (ofVec a)).charpoly := by
    refine Finset.prod_dvd_of_coprime ?_ fun j _ => Polynomial.dvd_iff_isRoot.2 (hroots j)
    intro i _ j _ hij
    exact Polynomial.isCoprime_X_sub_C_of_isUnit_sub (sub_ne_zero.2 fun h => hij (hinj h)).isUnit
  refine (Polynomial.eq_of_monic_of_dvd_of_natDegree_le (Polynomial.monic_prod_of_monic _ _ fun j _ => Polynomial.monic_X_sub_C _)
    hmonic hdvd ?_)
  rw [Matrix.charpoly_natDegree_eq_dim, Fintype.card_fin, Polynomial.natDegree_prod_of_monic _ _ fun j _ => Polynomial.monic_X_sub_C _]
  simp only [Polynomial.natDegree_X_sub_C, sum_const, card_univ, Fintype.card_fin, smul_eq_mul, mul_one, le_refl]

/-! ### groups of permutations -/

/-- the elements of a closed list as a subgroup. -/
def groupOf {A : Type} [Group A] {l : List A} {T : List (List Nat)} (hT : IsTable l T) (hne : l ≠ []) : Subgroup A where
  carrier := {g | g ∈ l}
  mul_mem' := fun ha hb => mul_mem hT ha hb
  one_mem' := by
    obtain ⟨a, as, h⟩ := List.exists_cons_of_ne_nil hne
    exact one_mem hT (g := a) (by rw [h]; simp)
  inv_mem' := fun ha => inv_mem hT ha

/-- the table of a list of elements of any group is a table of the group they form. -/
theorem table_groupOf {A : Type} [Group A] {l : List A} {T : List (List Nat)} (hT : IsTable l T) (hne : l ≠ []) :
    ∃ l' : List (groupOf hT hne), l'.map Subtype.val = l ∧ IsTable l' T ∧ ∀ g, g ∈ l' := by
  let l' : List (groupOf hT hne) := l.attach.map fun a => ⟨a.1, a.2⟩
  have hval : l'.map Subtype.val = l := by
    simp only [l', List.map_map]
    exact List.attach_map_subtype_val l
  have hget : ∀ (i : Nat) (g : groupOf hT hne), l'[i]? = some g ↔ l[i]? = some g.1 := by
    intro i g
    have h1 : l[i]? = (l'[i]?).map Subtype.val := by rw [← List.getElem?_map, hval]
    rw [h1]
    cases l'[i]? with
    | none => simp
    | some x =>
      rw [Option.map_some, Option.some.injEq, Option.some.injEq]
      exact Subtype.ext_iff
  refine ⟨l', hval, ⟨?_, ?_, ?_⟩, ?_⟩
  · have := hT.nodup
    rw [← hval] at this
    exact this.of_map
  · rw [hT.length]
    simp [l']
  · intro i j g h hi hj
    obtain ⟨row, k, h1, h2, h3⟩ := hT.get i j g.1 h.1 ((hget i g).1 hi) ((hget j h).1 hj)
    exact ⟨row, k, h1, h2, (hget k (g⁻¹ * h)).2 h3⟩
  · intro g
    have : g.1 ∈ l'.map Subtype.val := by rw [hval]; exact g.2
    obtain ⟨x, hx, hxg⟩ := List.mem_map.1 this
    rw [← Subtype.ext hxg]
    exact hx

theorem toPerm_arange (n : Nat) : toPerm n (arange n) = 1 := by
  ext i
  congr 1
  rw [toPerm_apply n _ (arange_isPerm n)]
  exact arange_getD n _ i.2

/-- The table of a `PermutationGroup` with the identity first (`productTable` succeeds for a list of permutations closed under
    products): its characters are those of the group of these permutations. -/
theorem C150_permutations (n : Nat) (rows : List (List Int)) (hrows : ∀ p ∈ rows, IsPerm n p) (hnd : rows.Nodup) (T : List (List Nat))
    (h : productTable rows = .ok T) (h0 : rows[0]? = some (arange n)) :
    ∃ (H : Subgroup (Equiv.Perm (Fin n))) (l : List H), l.map Subtype.val = rows.map (toPerm n) ∧ (∀ g, g ∈ l) ∧
      ∀ a w V, IsEig (classMatrix T a) w V → Function.Injective w →
        ∃ chars : List (H → ℂ), characterTable T V = some (chars.map fun χ => l.map fun g => prune (χ g)) ∧ chars.Nodup ∧
          ∀ χ, χ ∈ chars ↔ IsIrrChar χ := by
  have hT := (C41_permutations n rows hrows hnd T h).2
  have hne : rows.map (toPerm n) ≠ [] := by
    cases rows with
    | nil => simp at h0
    | cons r rs => simp
  obtain ⟨l, hl, hTl, hall⟩ := table_groupOf hT hne
  have : Fintype (groupOf hT hne) := Fintype.ofFinite _
  have h1 : l[0]? = some 1 := by
    have h2 : (l.map Subtype.val)[0]? = some 1 := by rw [hl, List.getElem?_map, h0, Option.map_some, toPerm_arange]
    rw [List.getElem?_map] at h2
    cases h3 : l[0]? with
    | none => rw [h3] at h2; cases h2
    | some x =>
      rw [h3] at h2
      simp only [Option.map_some, Option.some.injEq] at h2
      rw [show x = 1 from Subtype.ext h2]
  refine ⟨groupOf hT hne, l, hl, hall, fun a w V heig hw => ?_⟩
  obtain ⟨chars, h3, -, h4, h5, -⟩ := C150_table hTl hall h1 a w V heig hw
  exact ⟨chars, h3, h5, h4⟩

/-- the table of all the elements of a finite group, listed in any order. -/
def tableOf [DecidableEq G] (elems : List G) : List (List Nat) := elems.map fun g => elems.map fun h => elems.idxOf (g⁻¹ * h)

omit [Fintype G] in
theorem tableOf_isTable [DecidableEq G] (hnd : elems.Nodup) (hall : ∀ g, g ∈ elems) : IsTable elems (tableOf elems) := by
  refine ⟨hnd, by simp [tableOf], fun i j g h hi hj => ?_⟩
  refine ⟨_, _, by rw [tableOf, List.getElem?_map, hi]; rfl, by rw [List.getElem?_map, hj]; rfl, ?_⟩
  exact List.getElem?_idxOf (hall _)

/-- the hypotheses of C150_table are met by the symmetric group of three letters. -/
example : ∃ (elems : List (Equiv.Perm (Fin 3))) (T : List (List Nat)) (a : Nat → ℝ) (w : Fin (numClasses T) → ℂ)
    (V : Fin (numClasses T) → Fin (numClasses T) → ℂ),
    IsTable elems T ∧ (∀ g, g ∈ elems) ∧ elems[0]? = some 1 ∧ IsEig (classMatrix T a) w V ∧ Function.Injective w := by
  have hnd : ((1 : Equiv.Perm (Fin 3)) :: (univ.erase 1).toList).Nodup := by
    rw [List.nodup_cons]
    exact ⟨by simp, Finset.nodup_toList _⟩
  have hall : ∀ g, g ∈ (1 : Equiv.Perm (Fin 3)) :: (univ.erase 1).toList := by
    intro g
    by_cases h : g = 1 <;> simp [h]
  obtain ⟨a, w, V, h1, h2⟩ := C150_exists (tableOf_isTable hnd hall) hall
  exact ⟨_, _, a, w, V, tableOf_isTable hnd hall, hall, rfl, h1, h2⟩

/-- `PermutationGroup` of the cyclic group of order three. -/
example : productTable [[0, 1, 2], [1, 2, 0], [2, 0, 1]] = .ok [[0, 1, 2], [2, 0, 1], [1, 2, 0]]
    ∧ ([[0, 1, 2], [1, 2, 0], [2, 0, 1]] : List (List Int))[0]? = some (arange 3) := by decide +kernel

theorem sum_indicator {E : Type} (P : E → Prop) [DecidablePred P] (l : List E) (row : List Int) (hlen : row.length = l.length)
    (h : ∀ (k : Nat) y, l[k]? = some y → (P y → row[k]? = some 1) ∧ (¬P y → row[k]? = some 0)) :
    row.sum = ((l.filter fun y => decide (P y)).length : Int) := by
  induction l generalizing row with
  | nil =>
    cases row with
    | nil => rfl
    | cons => simp at hlen
  | cons x l ih =>
    cases row with
    | nil => simp at hlen
    | cons r row =>
      have h0 := h 0 x rfl
      have := ih row (by simpa using hlen) fun k y hk => by simpa using h (k + 1) y (by simpa using hk)
      rw [List.sum_cons, this]
      by_cases hx : P x
      · have := h0.1 hx
        simp only [List.getElem?_cons_zero, Option.some.injEq] at this
        rw [List.filter_cons_of_pos (by simpa using hx), this, List.length_cons]
        push_cast
        ring
      · have := h0.2 hx
        simp only [List.getElem?_cons_zero, Option.some.injEq] at this
        rw [List.filter_cons_of_neg (by simpa using hx), this, zero_add]

/-- **C150.** `character_table_readable` describes each class by its number of elements and its first element. -/
theorem C150_readable (hT : IsTable elems T) (hall : ∀ g, g ∈ elems) (V : Fin (numClasses T) → Fin (numClasses T) → ℂ) :
    (characterTableReadable T V).2 = characterTableByClass T V ∧ (characterTableReadable T V).1.length = numClasses T ∧
    ∀ (c : Nat) (size : Int) (r : Nat), (characterTableReadable T V).1[c]? = some (size, r) →
      (conjugacyClasses T).2.1[c]? = some r ∧ ∃ ρ, elems[r]? = some ρ ∧ size = (Nat.card {y : G // ∃ z, y = z * ρ * z⁻¹} : Int) ∧
        ∀ (k : Nat) y, elems[k]? = some y → (∃ z, y = z * ρ * z⁻¹) → r ≤ k := by
  classical
  obtain ⟨hlen, hcl⟩ := C41_classes hT
  refine ⟨rfl, ?_, ?_⟩
  · unfold characterTableReadable numClasses
    simp [hlen]
  · intro c size r h
    unfold characterTableReadable at h
    simp only at h
    rw [List.getElem?_zip_eq_some, List.getElem?_map, Option.map_eq_some_iff] at h
    obtain ⟨⟨row, hrow, hsize⟩, hr⟩ := h
    simp only at hsize hr
    obtain ⟨hl, ρ, hρ, hv⟩ := hcl c row r hrow hr
    refine ⟨hr, ρ, hρ, ?_, fun k y hk hz => ((hv k y hk).1 ((conj_iff hall ρ y).2 hz)).2⟩
    rw [← hsize, sum_indicator (fun y => Conj elems ρ y) elems row hl fun k y hk =>
      ⟨fun h => ((hv k y hk).1 h).1, (hv k y hk).2⟩]
    congr 1
    rw [Nat.card_eq_fintype_card, Fintype.card_subtype]
    have hnd := hT.nodup.filter fun y => decide (Conj elems ρ y)
    rw [← List.toFinset_card_of_nodup hnd]
    congr 1
    ext y
    simp [hall, conj_iff hall]

/-! ### the identity not listed first -/

/-- A character which vanishes at the first element makes the table NaN. -/
theorem nan_table (hT : IsTable elems T) (hall : ∀ g, g ∈ elems) (g0 : G) (h0 : elems[0]? = some g0) (a : Nat → ℝ)
    (w : Fin (numClasses T) → ℂ) (V : Fin (numClasses T) → Fin (numClasses T) → ℂ) (heig : IsEig (classMatrix T a) w V)
    (hw : Function.Injective w) (χ : G → ℂ) (hχ : IsIrrChar χ) (hz : χ g0 = 0) : characterTable T V = none := by
  classical
  obtain ⟨X, hX, hsurj, -, hV⟩ := eig_chars hT hall a w V heig hw
  obtain ⟨j, hj⟩ := hsurj χ hχ
  obtain ⟨c, hc, hcX⟩ := hV j
  obtain ⟨-, -, -, hn, -⟩ := (hX j).facts
  have hrow := rowOf_eq hT hall g0 h0 (V j) (X j) (irr_classFn (hX j)) hn c hc hcX
  rw [if_pos (by rw [hj]; exact hz)] at hrow
  have hnone : ∀ l : List (Fin (numClasses T)), j ∈ l → (l.mapM fun j => rowOf T (V j)) = none := by
    intro l
    induction l with
    | nil => intro h; simp at h
    | cons i l ih =>
      intro h
      rw [List.mapM_cons]
      rcases List.mem_cons.1 h with h | h
      · rw [← h, hrow]
        rfl
      · rw [ih h]
        cases rowOf T (V i) <;> rfl
  unfold characterTable characterTableByClass
  rw [hnone _ (List.mem_finRange j)]

/-- fixed points minus one. -/
def stdInt (g : Equiv.Perm (Fin 3)) : Int := (univ.filter fun i => g i = i).card - 1

theorem std_spherical : Spherical fun g => (stdInt g : ℂ) / 2 := by
  have hf : ∀ r g, 2 * ∑ h, stdInt (r * (h * g * h⁻¹)) = 6 * (stdInt r * stdInt g) := by decide +kernel
  refine ⟨by rw [show stdInt 1 = 2 by decide +kernel]; norm_num, fun r g => ?_⟩
  have h1 : (2 : ℂ) * ∑ h, (stdInt (r * (h * g * h⁻¹)) : ℂ) = 6 * (stdInt r * stdInt g) := by
    exact_mod_cast congrArg (Int.cast (R := ℂ)) (hf r g)
  rw [← sum_div, show Fintype.card (Equiv.Perm (Fin 3)) = 6 by decide +kernel]
  push_cast
  linear_combination h1 / 4

/-- "Assumes that `Identity() == self[0]`, if not, the sign of some characters may be flipped" (_group.py:189-190, 241-242): for the
    symmetric group of three letters beginning with a transposition the table contains NaN. -/
theorem C151_first_refuted : ¬ ∀ (G : Type) [Group G] [Fintype G] (elems : List G) (T : List (List Nat)) (a : Nat → ℝ)
    (w : Fin (numClasses T) → ℂ) (V : Fin (numClasses T) → Fin (numClasses T) → ℂ), IsTable elems T → (∀ g, g ∈ elems) →
    IsEig (classMatrix T a) w V → Function.Injective w → ∃ table, characterTable T V = some table := by
  intro hcon
  obtain ⟨elems, hnd, hall, h0⟩ : ∃ elems : List (Equiv.Perm (Fin 3)), elems.Nodup ∧ (∀ g, g ∈ elems) ∧
      elems[0]? = some (Equiv.swap 0 1) := by
    refine ⟨Equiv.swap 0 1 :: (univ.erase (Equiv.swap 0 1)).toList, ?_, ?_, rfl⟩
    · rw [List.nodup_cons]
      exact ⟨by simp, Finset.nodup_toList _⟩
    · intro g
      by_cases h : g = Equiv.swap 0 1 <;> simp [h]
  have hT := tableOf_isTable hnd hall
  obtain ⟨a, w, V, heig, hw⟩ := C150_exists hT hall
  obtain ⟨table, htab⟩ := hcon _ _ _ a w V hT hall heig hw
  obtain ⟨d, χ, hd, hχ, hdχ⟩ := std_spherical.irrChar
  have hχt : χ (Equiv.swap 0 1) = 0 := by rw [hdχ, show stdInt (Equiv.swap 0 1) = 0 by decide +kernel]; simp
  rw [nan_table hT hall _ h0 a w V heig hw χ hχ hχt] at htab
  cases htab

theorem mem_sortTable {table : List (List ℂ)} {row : List ℂ} (h : row ∈ sortTable table) : ∃ r ∈ table, row = r.map prune := by
  unfold sortTable at h
  obtain ⟨r, hr, rfl⟩ := List.mem_map.1 h
  obtain ⟨i, -, hi⟩ := List.mem_filterMap.1 hr
  exact ⟨r, List.mem_of_getElem? hi, rfl⟩

theorem row_elems [DecidableEq G] (hT : IsTable elems T) (hall : ∀ g, g ∈ elems) (F : G → ℂ) (hF : IsClassFn F) :
    ((conjugacyClasses T).2.2.map fun c => ((rowC hT hall F).map prune).getD c 0) = elems.map fun g => prune (F g) := by
  rw [inverse_eq hT hall, List.map_map]
  refine List.map_congr_left fun g _ => ?_
  rw [Function.comp, rowC, List.map_map, List.getD_eq_getElem?_getD, List.getElem?_map, List.getElem?_eq_getElem (by simp),
    Option.map_some, Option.getD_some, List.getElem_finRange]
  exact congrArg prune (choose_val hT hall F hF g)

/-- a character does not vanish on the centre. -/
theorem central_ne (g0 : G) (hc : ∀ h, h * g0 = g0 * h) (χ : G → ℂ) (hχ : IsIrrChar χ) : χ g0 ≠ 0 := by
  obtain ⟨d, hd, -, -, hs⟩ := hχ.facts
  intro h0
  have h1 := hs.eqn g0⁻¹ g0
  have h2 : ∀ h, g0⁻¹ * (h * g0 * h⁻¹) = 1 := fun h => by rw [hc h]; group
  simp only [h2, hs.one, h0, zero_div, mul_zero, sum_const, card_univ, nsmul_eq_mul, mul_one] at h1
  exact card_ne h1

/-- What holds: if no irreducible character vanishes at the first element, each row is an irreducible character divided by the
    phase of its value there. -/
theorem C151_first_partial (hT : IsTable elems T) (hall : ∀ g, g ∈ elems) (g0 : G) (h0 : elems[0]? = some g0) (a : Nat → ℝ)
    (w : Fin (numClasses T) → ℂ) (V : Fin (numClasses T) → Fin (numClasses T) → ℂ) (heig : IsEig (classMatrix T a) w V)
    (hw : Function.Injective w) (hz : ∀ χ : G → ℂ, IsIrrChar χ → χ g0 ≠ 0) :
    ∃ table, characterTable T V = some table ∧ ∀ row ∈ table, ∃ χ : G → ℂ, IsIrrChar χ ∧
      row = elems.map fun g => prune (χ g / (χ g0 / ‖χ g0‖)) := by
  classical
  obtain ⟨X, hX, -, -, hV⟩ := eig_chars hT hall a w V heig hw
  have hrow : ∀ j ∈ List.finRange (numClasses T), rowOf T (V j) =
      some (rowC hT hall fun g => X j g / (X j g0 / ‖X j g0‖)) := by
    intro j _
    obtain ⟨c, hc, hcX⟩ := hV j
    obtain ⟨-, -, -, hn, -⟩ := (hX j).facts
    rw [rowOf_eq hT hall g0 h0 (V j) (X j) (irr_classFn (hX j)) hn c hc hcX, if_neg (hz _ (hX j))]
  have hmapM := mapM_some _ _ _ hrow
  have hct : characterTable T V = some ((sortTable ((List.finRange (numClasses T)).map fun j =>
      rowC hT hall fun g => X j g / (X j g0 / ‖X j g0‖))).map fun row => (conjugacyClasses T).2.2.map fun c => row.getD c 0) := by
    unfold characterTable characterTableByClass
    rw [hmapM]
  refine ⟨_, hct, fun row hr => ?_⟩
  obtain ⟨r, hr, hrow'⟩ := List.mem_map.1 hr
  obtain ⟨r', hr', hr2⟩ := mem_sortTable hr
  obtain ⟨j, -, hj⟩ := List.mem_map.1 hr'
  refine ⟨X j, hX j, ?_⟩
  rw [← hrow', hr2, ← hj]
  exact row_elems hT hall (fun g => X j g / (X j g0 / ‖X j g0‖)) fun x g => by simp only [irr_classFn (hX j) x g]

/-- the hypotheses are met by the group of two elements with the identity listed last. -/
example : ∃ (elems : List (Multiplicative (ZMod 2))) (T : List (List Nat)) (a : Nat → ℝ) (w : Fin (numClasses T) → ℂ)
    (V : Fin (numClasses T) → Fin (numClasses T) → ℂ) (g0 : Multiplicative (ZMod 2)),
    IsTable elems T ∧ (∀ g, g ∈ elems) ∧ elems[0]? = some g0 ∧ g0 ≠ 1 ∧ IsEig (classMatrix T a) w V ∧ Function.Injective w ∧
    ∀ χ : Multiplicative (ZMod 2) → ℂ, IsIrrChar χ → χ g0 ≠ 0 := by
  have hnd : [Multiplicative.ofAdd (1 : ZMod 2), 1].Nodup := by decide
  have hall : ∀ g, g ∈ [Multiplicative.ofAdd (1 : ZMod 2), 1] := by decide
  obtain ⟨a, w, V, h1, h2⟩ := C150_exists (tableOf_isTable hnd hall) hall
  exact ⟨_, _, a, w, V, _, tableOf_isTable hnd hall, hall, rfl, by decide, h1, h2, fun χ hχ => central_ne _ (fun h => mul_comm _ _) χ hχ⟩

end Verif.CharTab
