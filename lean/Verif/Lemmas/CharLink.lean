import Verif.Model.CharTable
import Verif.Lemmas.Generic
import Verif.Props.Conjugacy

/-! The lists of the model and functions on the group. -/

namespace Verif.CharTab
open Verif.Grp Verif.Irrep Finset

variable {G : Type} [Group G] [Fintype G] {elems : List G} {T : List (List Nat)}

/-- sum over indices and over the group. -/
theorem sum_index (hnd : elems.Nodup) (hall : ∀ g, g ∈ elems) (f : G → ℂ) :
    ∑ i ∈ range elems.length, f (elems.getD i 1) = ∑ g, f g := by
  classical
  rw [Finset.sum_range]
  refine Fintype.sum_equiv (List.Nodup.getEquivOfForallMemList elems hnd hall) _ _ fun i => ?_
  simp

/-- class of an element. -/
noncomputable def kappaNat [DecidableEq G] (elems : List G) (T : List (List Nat)) (g : G) : Nat :=
  (conjugacyClasses T).2.2.getD (elems.idxOf g) 0

theorem kappaNat_spec [DecidableEq G] (hT : IsTable elems T) (hall : ∀ g, g ∈ elems) (g : G) :
    ∃ row, (conjugacyClasses T).1[kappaNat elems T g]? = some row ∧ row[elems.idxOf g]? = some 1 := by
  obtain ⟨c, row, h1, h2, h3⟩ := (C41_class_of hT).2 (elems.idxOf g) g (List.getElem?_idxOf (hall g))
  refine ⟨row, ?_, h3⟩
  have : kappaNat elems T g = c := by
    unfold kappaNat
    rw [List.getD_eq_getElem?_getD, h1]
    rfl
  rw [this]
  exact h2

theorem kappaNat_lt [DecidableEq G] (hT : IsTable elems T) (hall : ∀ g, g ∈ elems) (g : G) :
    kappaNat elems T g < numClasses T := by
  obtain ⟨row, h, -⟩ := kappaNat_spec hT hall g
  exact (List.getElem?_eq_some_iff.1 h).1

/-- class of an element. -/
noncomputable def kappa [DecidableEq G] (hT : IsTable elems T) (hall : ∀ g, g ∈ elems) (g : G) : Fin (numClasses T) :=
  ⟨kappaNat elems T g, kappaNat_lt hT hall g⟩

theorem conj_iff (hall : ∀ g, g ∈ elems) (x y : G) : Conj elems x y ↔ ∃ z, y = z * x * z⁻¹ := by
  constructor
  · rintro ⟨h, -, rfl⟩
    exact ⟨h⁻¹, by group⟩
  · rintro ⟨z, rfl⟩
    exact ⟨z⁻¹, hall _, by group⟩

/-- entries of a row of `classes`. -/
theorem row_entry [DecidableEq G] (hT : IsTable elems T) (hall : ∀ g, g ∈ elems) (c : Fin (numClasses T)) :
    ∃ row ρ, (conjugacyClasses T).1[(c : Nat)]? = some row ∧ row.length = elems.length ∧ kappa hT hall ρ = c ∧
      ∀ (i : Nat) y, elems[i]? = some y →
        ((∃ z, y = z * ρ * z⁻¹) → row[i]? = some 1) ∧ ((¬∃ z, y = z * ρ * z⁻¹) → row[i]? = some 0) := by
  have hc : (c : Nat) < (conjugacyClasses T).1.length := c.2
  obtain ⟨hlen, hcl⟩ := C41_classes hT
  have h1 : (conjugacyClasses T).1[(c : Nat)]? = some (conjugacyClasses T).1[(c : Nat)] := List.getElem?_eq_getElem hc
  have h2 : (conjugacyClasses T).2.1[(c : Nat)]? = some ((conjugacyClasses T).2.1[(c : Nat)]'(by omega)) :=
    List.getElem?_eq_getElem (by omega)
  obtain ⟨hl, ρ, hρ, hv⟩ := hcl c _ _ h1 h2
  refine ⟨_, ρ, h1, hl, ?_, fun i y hi => ⟨fun h => ((hv i y hi).1 ((conj_iff hall _ _).2 h)).1,
    fun h => (hv i y hi).2 fun h' => h ((conj_iff hall _ _).1 h')⟩⟩
  obtain ⟨row, hrow, h3⟩ := kappaNat_spec hT hall ρ
  apply Fin.ext
  by_contra hne
  refine C41_disjoint hT _ _ hne _ _ hrow h1 (elems.idxOf ρ) ⟨h3, ?_⟩
  exact ((hv _ ρ (List.getElem?_idxOf (hall ρ))).1 (conj_refl hT (hall ρ))).1

theorem kappa_conj [DecidableEq G] (hT : IsTable elems T) (hall : ∀ g, g ∈ elems) (g h : G) :
    kappa hT hall g = kappa hT hall h ↔ ∃ x, h = x * g * x⁻¹ := by
  obtain ⟨row, ρ, h1, -, -, hv⟩ := row_entry hT hall (kappa hT hall g)
  obtain ⟨row', h1', h3⟩ := kappaNat_spec hT hall g
  have e1 : row' = row := by
    have : some row' = some row := by rw [← h1', ← h1]; rfl
    exact Option.some.inj this
  subst e1
  have hg : ∃ z, g = z * ρ * z⁻¹ := by
    by_contra hn
    rw [(hv _ g (List.getElem?_idxOf (hall g))).2 hn] at h3
    simp at h3
  obtain ⟨z, hz⟩ := hg
  constructor
  · intro he
    obtain ⟨row2, h2, h4⟩ := kappaNat_spec hT hall h
    have e2 : row2 = row' := by
      have : some row2 = some row' := by
        rw [← h2, ← h1, he]
        rfl
      exact Option.some.inj this
    subst e2
    have hh : ∃ z, h = z * ρ * z⁻¹ := by
      by_contra hn
      rw [(hv _ h (List.getElem?_idxOf (hall h))).2 hn] at h4
      simp at h4
    obtain ⟨y, hy⟩ := hh
    refine ⟨y * z⁻¹, ?_⟩
    rw [hy, hz]
    group
  · rintro ⟨x, rfl⟩
    obtain ⟨row2, h2, h4⟩ := kappaNat_spec hT hall (x * g * x⁻¹)
    apply Fin.ext
    by_contra hne
    refine C41_disjoint hT _ _ hne _ _ h1 h2 (elems.idxOf (x * g * x⁻¹)) ⟨?_, h4⟩
    refine (hv _ _ (List.getElem?_idxOf (hall _))).1 ⟨x * z, ?_⟩
    rw [hz]
    group

theorem kappa_classes [DecidableEq G] (hT : IsTable elems T) (hall : ∀ g, g ∈ elems) :
    Classes G (numClasses T) (kappa hT hall) where
  surj c := by
    obtain ⟨_, ρ, _, _, h, _⟩ := row_entry hT hall c
    exact ⟨ρ, h⟩
  conj := kappa_conj hT hall

theorem member_eq [DecidableEq G] (hT : IsTable elems T) (hall : ∀ g, g ∈ elems) (c : Fin (numClasses T)) (i : Nat)
    (hi : i < elems.length) : member T c i = if kappa hT hall (elems.getD i 1) = c then 1 else 0 := by
  obtain ⟨row, ρ, h1, -, h2, hv⟩ := row_entry hT hall c
  have hg : elems[i]? = some (elems.getD i 1) := by
    rw [List.getD_eq_getElem?_getD, List.getElem?_eq_getElem hi]
    rfl
  unfold member
  rw [List.getD_eq_getElem?_getD, List.getD_eq_getElem?_getD, h1, Option.getD_some]
  by_cases hc : kappa hT hall (elems.getD i 1) = c
  · rw [if_pos hc, (hv i _ hg).1 ((kappa_conj hT hall _ _).1 (h2.trans hc.symm))]
    simp
  · rw [if_neg hc, (hv i _ hg).2 fun h => hc (((kappa_conj hT hall _ _).2 h).symm.trans h2)]
    simp

theorem classSize_eq [DecidableEq G] (hT : IsTable elems T) (hall : ∀ g, g ∈ elems) (c : Fin (numClasses T)) :
    classSize T c = size (kappa hT hall) c := by
  unfold classSize size
  rw [hT.length, ← sum_index hT.nodup hall]
  exact sum_congr rfl fun i hi => member_eq hT hall c i (Finset.mem_range.1 hi)

theorem classMatrix_eq [DecidableEq G] (hT : IsTable elems T) (hall : ∀ g, g ∈ elems) (a : Nat → ℝ) :
    classMatrix T a = clsMatrix (kappa hT hall) fun g => (a (elems.idxOf g) : ℂ) := by
  funext R S
  unfold classMatrix clsMatrix
  rw [classSize_eq hT hall, hT.length]
  congr 1
  rw [← sum_index hT.nodup hall]
  refine sum_congr rfl fun i hi => ?_
  rw [← sum_index hT.nodup hall]
  refine sum_congr rfl fun j hj => ?_
  have hi' := Finset.mem_range.1 hi
  have hj' := Finset.mem_range.1 hj
  rw [member_eq hT hall R i hi', member_eq hT hall S j hj']
  congr 4
  have hgi : elems[i]? = some (elems.getD i 1) := by
    rw [List.getD_eq_getElem?_getD, List.getElem?_eq_getElem hi']; rfl
  have hgj : elems[j]? = some (elems.getD j 1) := by
    rw [List.getD_eq_getElem?_getD, List.getElem?_eq_getElem hj']; rfl
  have he := entry_spec hT hgi hgj
  obtain ⟨hlt, he2⟩ := List.getElem?_eq_some_iff.1 he
  rw [← he2]
  exact (List.Nodup.idxOf_getElem hT.nodup _ hlt).symm

theorem inverse_eq [DecidableEq G] (hT : IsTable elems T) (hall : ∀ g, g ∈ elems) :
    (conjugacyClasses T).2.2 = elems.map fun g => (kappa hT hall g : Nat) := by
  apply List.ext_getElem?
  intro i
  by_cases hi : i < elems.length
  · rw [List.getElem?_map, List.getElem?_eq_getElem hi]
    obtain ⟨c, row, h1, -, -⟩ := (C41_class_of hT).2 i elems[i] (List.getElem?_eq_getElem hi)
    rw [h1]
    simp only [Option.map_some, kappa, kappaNat, List.Nodup.idxOf_getElem hT.nodup, List.getD_eq_getElem?_getD, h1, Option.getD_some]
  · rw [List.getElem?_eq_none (by rw [(C41_class_of hT).1]; omega), List.getElem?_eq_none (by simp; omega)]

theorem lexLe_head (x y : Int) (xs ys : List Int) (h : lexLe (x :: xs) (y :: ys) = true) : x ≤ y := by
  simp only [lexLe, Bool.or_eq_true, Bool.and_eq_true, decide_eq_true_eq] at h
  rcases h with h | h
  · omega
  · omega

/-- the class of the first element is listed first. -/
theorem kappa_first [DecidableEq G] (hT : IsTable elems T) (hall : ∀ g, g ∈ elems) (g : G) (hg : elems[0]? = some g) :
    (kappa hT hall g : Nat) = 0 := by
  have hn : 0 < numClasses T := Nat.lt_of_le_of_lt (Nat.zero_le _) (kappa hT hall g).2
  obtain ⟨row, ρ, h1, hlen, -, hv⟩ := row_entry hT hall ⟨0, hn⟩
  obtain ⟨row', h2, h3⟩ := kappaNat_spec hT hall g
  have hidx : elems.idxOf g = 0 := by
    obtain ⟨hlt, he⟩ := List.getElem?_eq_some_iff.1 hg
    rw [← he]
    exact List.Nodup.idxOf_getElem hT.nodup _ hlt
  rw [hidx] at h3
  have hle : lexLe row' row = true := by
    have hp : (uniqueRows (isConjugate T)).Pairwise (fun a b => lexLe a b = true) :=
      sortBy_pairwise lexLe_trans lexLe_total _
    have hrev : (conjugacyClasses T).1.Pairwise (fun a b => lexLe b a = true) := List.pairwise_reverse.2 hp
    by_cases h0 : kappaNat elems T g = 0
    · rw [h0] at h2
      have : row = row' := Option.some.inj (h1.symm.trans h2)
      rw [this]
      have := lexLe_total row' row'
      simpa using this
    · obtain ⟨ha, ha'⟩ := List.getElem?_eq_some_iff.1 h1
      obtain ⟨hb, hb'⟩ := List.getElem?_eq_some_iff.1 h2
      have := List.pairwise_iff_getElem.1 hrev 0 _ ha hb (by omega)
      rw [← ha', ← hb']
      exact this
  have hrow : row[0]? = some 1 := by
    cases row' with
    | nil => simp at h3
    | cons x xs =>
      have hx : x = 1 := by simpa using h3
      cases row with
      | nil => simp [lexLe] at hle
      | cons y ys =>
        have := lexLe_head _ _ _ _ hle
        by_cases hy : ∃ z, g = z * ρ * z⁻¹
        · exact (hv 0 g hg).1 hy
        · have := (hv 0 g hg).2 hy
          simp only [List.getElem?_cons_zero, Option.some.injEq] at this
          omega
  by_contra hne
  exact C41_disjoint hT _ _ hne _ _ h2 h1 0 ⟨h3, hrow⟩

end Verif.CharTab
