import Verif.Props.Group
import Mathlib.Algebra.Group.Basic
import Mathlib.Algebra.Group.End
import Mathlib.Tactic.Group

/-! C41: conjugacy classes. -/

set_option linter.unusedSectionVars false
set_option linter.unusedVariables false

namespace Verif.Grp
open Verif.Hilbert (Err pyIndex)

/-- `T` is the table of `g⁻¹ h` of the distinct group elements `elems`. -/
structure IsTable {G : Type} [Group G] (elems : List G) (T : List (List Nat)) : Prop where
  nodup : elems.Nodup
  length : T.length = elems.length
  get : ∀ (i j : Nat) g h, elems[i]? = some g → elems[j]? = some h →
    ∃ row k, T[i]? = some row ∧ row[j]? = some k ∧ elems[k]? = some (g⁻¹ * h)

/-- `y` is conjugate to `x` in `elems`. -/
def Conj {G : Type} [Group G] (elems : List G) (x y : G) : Prop := ∃ h ∈ elems, y = h⁻¹ * x * h

variable {G : Type} [Group G] {elems : List G} {T : List (List Nat)}

theorem entry_spec (hT : IsTable elems T) {i j : Nat} {g h : G} (hi : elems[i]? = some g) (hj : elems[j]? = some h) :
    elems[entry T i j]? = some (g⁻¹ * h) := by
  obtain ⟨row, k, h1, h2, h3⟩ := hT.get i j g h hi hj
  unfold entry
  rw [List.getD_eq_getElem?_getD, List.getD_eq_getElem?_getD, h1]
  simp only [Option.getD_some]
  rw [h2]
  exact h3

theorem conj_entry (hT : IsTable elems T) {i j : Nat} {g h : G} (hi : elems[i]? = some g) (hj : elems[j]? = some h) :
    elems[entry T (entry T i j) j]? = some (h⁻¹ * g * h) := by
  rw [entry_spec hT (entry_spec hT hi hj) hj]
  congr 1
  group

/-- the table of conjugates: entry `(g, h)` is the index of `h⁻¹ g h`. -/
theorem C41_conjugacy_table (hT : IsTable elems T) (i j : Nat) (g h : G) (hi : elems[i]? = some g) (hj : elems[j]? = some h) :
    ∃ row k, (conjugacyTable T)[i]? = some row ∧ row[j]? = some k ∧ elems[k]? = some (h⁻¹ * g * h) := by
  have hi' : i < T.length := by rw [hT.length]; exact (List.getElem?_eq_some_iff.1 hi).1
  have hj' : j < T.length := by rw [hT.length]; exact (List.getElem?_eq_some_iff.1 hj).1
  refine ⟨(List.range T.length).map fun h => entry T (entry T i h) h, entry T (entry T i j) j, ?_, ?_, conj_entry hT hi hj⟩
  · rw [conjugacyTable, List.getElem?_map, List.getElem?_range hi']; rfl
  · rw [List.getElem?_map, List.getElem?_range hj']; rfl

/-! the group generated by the table. -/

theorem one_mem (hT : IsTable elems T) {g : G} (hg : g ∈ elems) : (1 : G) ∈ elems := by
  obtain ⟨i, hi⟩ := List.mem_iff_getElem?.1 hg
  have := entry_spec hT hi hi
  rw [inv_mul_cancel] at this
  exact List.mem_of_getElem? this

theorem inv_mem (hT : IsTable elems T) {g : G} (hg : g ∈ elems) : g⁻¹ ∈ elems := by
  obtain ⟨i, hi⟩ := List.mem_iff_getElem?.1 hg
  obtain ⟨j, hj⟩ := List.mem_iff_getElem?.1 (one_mem hT hg)
  have := entry_spec hT hi hj
  rw [mul_one] at this
  exact List.mem_of_getElem? this

theorem mul_mem (hT : IsTable elems T) {g h : G} (hg : g ∈ elems) (hh : h ∈ elems) : g * h ∈ elems := by
  obtain ⟨i, hi⟩ := List.mem_iff_getElem?.1 (inv_mem hT hg)
  obtain ⟨j, hj⟩ := List.mem_iff_getElem?.1 hh
  have := entry_spec hT hi hj
  rw [inv_inv] at this
  exact List.mem_of_getElem? this

theorem conj_refl (hT : IsTable elems T) {g : G} (hg : g ∈ elems) : Conj elems g g := ⟨1, one_mem hT hg, by simp⟩

theorem conj_symm (hT : IsTable elems T) {x y : G} (h : Conj elems x y) : Conj elems y x := by
  obtain ⟨k, hk, rfl⟩ := h
  exact ⟨k⁻¹, inv_mem hT hk, by group⟩

theorem conj_trans (hT : IsTable elems T) {x y z : G} (h : Conj elems x y) (h' : Conj elems y z) : Conj elems x z := by
  obtain ⟨k, hk, rfl⟩ := h
  obtain ⟨l, hl, rfl⟩ := h'
  exact ⟨k * l, mul_mem hT hk hl, by group⟩

/-! rows of `is_conjugate`. -/

theorem isConjugate_row (hT : IsTable elems T) (i : Nat) (g : G) (hi : elems[i]? = some g) :
    ∃ row, (isConjugate T)[i]? = some row ∧ row.length = elems.length ∧ ∀ (k : Nat) y, elems[k]? = some y →
      (Conj elems g y → row[k]? = some 1) ∧ (¬ Conj elems g y → row[k]? = some 0) := by
  have hi' : i < T.length := by rw [hT.length]; exact (List.getElem?_eq_some_iff.1 hi).1
  refine ⟨_, by rw [isConjugate, List.getElem?_map, List.getElem?_range hi']; rfl, by simp [hT.length], ?_⟩
  intro k y hk
  have hk' : k < T.length := by rw [hT.length]; exact (List.getElem?_eq_some_iff.1 hk).1
  have hmem : (((conjugacyTable T).getD i []).contains k = true) ↔ Conj elems g y := by
    rw [List.contains_iff_mem, conjugacyTable, List.getD_eq_getElem?_getD, List.getElem?_map, List.getElem?_range hi']
    simp only [Option.map_some, Option.getD_some, List.mem_map, List.mem_range]
    constructor
    · rintro ⟨j, hj, he⟩
      rw [hT.length] at hj
      have hj2 : elems[j]? = some elems[j] := List.getElem?_eq_getElem hj
      have := conj_entry hT hi hj2
      rw [he, hk] at this
      exact ⟨_, List.getElem_mem hj, Option.some.inj this⟩
    · rintro ⟨h, hh, rfl⟩
      obtain ⟨j, hj⟩ := List.mem_iff_getElem?.1 hh
      refine ⟨j, by rw [hT.length]; exact (List.getElem?_eq_some_iff.1 hj).1, ?_⟩
      have := conj_entry hT hi hj
      rw [← hk] at this
      obtain ⟨hlt, h1⟩ := List.getElem?_eq_some_iff.1 (this.trans hk)
      have hlt2 := (List.getElem?_eq_some_iff.1 hk).1
      rw [List.getElem?_eq_getElem hlt, List.getElem?_eq_getElem hlt2] at this
      exact (List.Nodup.getElem_inj_iff hT.nodup).1 (Option.some.inj this)
  rw [List.getElem?_map, List.getElem?_range hk']
  constructor
  · intro h; simp only [Option.map_some, Option.some.injEq]; rw [if_pos (hmem.2 h)]
  · intro h; simp only [Option.map_some, Option.some.injEq]; rw [if_neg (fun h' => h (hmem.1 h'))]

theorem isConjugate_length (T : List (List Nat)) : (isConjugate T).length = T.length := by simp [isConjugate]

theorem rows_eq_iff (hT : IsTable elems T) (i j : Nat) (g h : G) (hi : elems[i]? = some g) (hj : elems[j]? = some h) :
    (isConjugate T)[i]? = (isConjugate T)[j]? ↔ Conj elems g h := by
  obtain ⟨r, hr, hrl, hr'⟩ := isConjugate_row hT i g hi
  obtain ⟨s, hs, hsl, hs'⟩ := isConjugate_row hT j h hj
  rw [hr, hs]
  constructor
  · intro he
    obtain rfl := Option.some.inj he
    by_contra hn
    have h1 := (hr' j h hj).2 hn
    have h2 := (hs' j h hj).1 (conj_refl hT (List.mem_of_getElem? hj))
    rw [h1] at h2
    simp at h2
  · intro hc
    congr 1
    apply List.ext_getElem? 
    intro k
    rcases Nat.lt_or_ge k elems.length with hk | hk
    · have hk2 : elems[k]? = some elems[k] := List.getElem?_eq_getElem hk
      by_cases hx : Conj elems g elems[k]
      · rw [(hr' k _ hk2).1 hx, (hs' k _ hk2).1 (conj_trans hT (conj_symm hT hc) hx)]
      · rw [(hr' k _ hk2).2 hx, (hs' k _ hk2).2 fun h' => hx (conj_trans hT hc h')]
    · rw [List.getElem?_eq_none (by omega), List.getElem?_eq_none (by omega)]

/-- for every class there is a row and a representative: the row marks exactly the conjugates of the representative, which is the
    member of the class with the lowest index. -/
theorem C41_classes (hT : IsTable elems T) :
    (conjugacyClasses T).1.length = (conjugacyClasses T).2.1.length
    ∧ ∀ (c : Nat) row r, (conjugacyClasses T).1[c]? = some row → (conjugacyClasses T).2.1[c]? = some r →
      row.length = elems.length ∧ ∃ ρ, elems[r]? = some ρ ∧ ∀ (k : Nat) y, elems[k]? = some y →
        (Conj elems ρ y → row[k]? = some 1 ∧ r ≤ k) ∧ (¬ Conj elems ρ y → row[k]? = some 0) := by
  refine ⟨by simp [conjugacyClasses, uniqueIndex], ?_⟩
  intro c row r h1 h2
  unfold conjugacyClasses at h1 h2
  simp only at h1 h2
  set rows := isConjugate T with hrows
  have hc : c < (uniqueRows rows).reverse.length := (List.getElem?_eq_some_iff.1 h1).1
  have hu : (uniqueIndex rows).reverse = (uniqueRows rows).reverse.map fun r => rows.idxOf r := by
    rw [uniqueIndex, List.map_reverse]
  rw [hu, List.getElem?_map, h1] at h2
  simp only [Option.map_some, Option.some.injEq] at h2
  have hmem : row ∈ rows := (mem_uniqueRows rows row).1 (List.mem_reverse.1 (List.mem_of_getElem? h1))
  have hlt : rows.idxOf row < rows.length := List.idxOf_lt_length_iff.2 hmem
  have hr : r < elems.length := by rw [← h2, ← hT.length, ← isConjugate_length T]; exact hlt
  have hget : rows[r]? = some row := by rw [← h2]; exact List.getElem?_idxOf hmem
  have hρ : elems[r]? = some elems[r] := List.getElem?_eq_getElem hr
  obtain ⟨row', hrow', hlen, hval⟩ := isConjugate_row hT r _ hρ
  have : row' = row := by
    have : some row' = some row := by rw [← hrow', ← hget]
    exact Option.some.inj this
  subst this
  refine ⟨hlen, elems[r], hρ, ?_⟩
  intro k y hk
  refine ⟨fun h => ⟨(hval k y hk).1 h, ?_⟩, (hval k y hk).2⟩
  have he := (rows_eq_iff hT r k _ y hρ hk).2 h
  have hfirst := (mem_uniqueIndex rows r).1 (List.mem_map.2 ⟨row', (mem_uniqueRows rows row').2 hmem, h2⟩)
  by_contra hlt'
  exact hfirst.2 k (by omega) he.symm

/-- different rows are disjoint. -/
theorem C41_disjoint (hT : IsTable elems T) (c d : Nat) (hcd : c ≠ d) (row row' : List Int)
    (hc : (conjugacyClasses T).1[c]? = some row) (hd : (conjugacyClasses T).1[d]? = some row') (k : Nat) :
    ¬ (row[k]? = some 1 ∧ row'[k]? = some 1) := by
  rintro ⟨h1, h2⟩
  obtain ⟨hlen, hall⟩ := C41_classes hT
  have hr : ∃ r, (conjugacyClasses T).2.1[c]? = some r :=
    ⟨_, List.getElem?_eq_getElem (by rw [← hlen]; exact (List.getElem?_eq_some_iff.1 hc).1)⟩
  have hr' : ∃ r, (conjugacyClasses T).2.1[d]? = some r :=
    ⟨_, List.getElem?_eq_getElem (by rw [← hlen]; exact (List.getElem?_eq_some_iff.1 hd).1)⟩
  obtain ⟨r, hr⟩ := hr
  obtain ⟨r', hr'⟩ := hr'
  obtain ⟨hl, ρ, hρ, hv⟩ := hall c row r hc hr
  obtain ⟨hl', ρ', hρ', hv'⟩ := hall d row' r' hd hr'
  have hk : k < elems.length := by rw [← hl]; exact (List.getElem?_eq_some_iff.1 h1).1
  have hk2 : elems[k]? = some elems[k] := List.getElem?_eq_getElem hk
  have c1 : Conj elems ρ elems[k] := by
    by_contra hn
    rw [(hv k _ hk2).2 hn] at h1
    simp at h1
  have c2 : Conj elems ρ' elems[k] := by
    by_contra hn
    rw [(hv' k _ hk2).2 hn] at h2
    simp at h2
  have c3 : Conj elems ρ ρ' := conj_trans hT c1 (conj_symm hT c2)
  have heq : row = row' := by
    apply List.ext_getElem?
    intro m
    rcases Nat.lt_or_ge m elems.length with hm | hm
    · have hm2 : elems[m]? = some elems[m] := List.getElem?_eq_getElem hm
      by_cases hx : Conj elems ρ elems[m]
      · rw [((hv m _ hm2).1 hx).1, ((hv' m _ hm2).1 (conj_trans hT (conj_symm hT c3) hx)).1]
      · rw [(hv m _ hm2).2 hx, (hv' m _ hm2).2 fun h' => hx (conj_trans hT c3 h')]
    · rw [List.getElem?_eq_none (by omega), List.getElem?_eq_none (by omega)]
  subst heq
  have hnd : (conjugacyClasses T).1.Nodup := List.nodup_reverse.2 (uniqueRows_nodup _)
  exact hcd ((List.getElem?_inj (List.getElem?_eq_some_iff.1 hc).1 hnd).1 (hc.trans hd.symm))

/-- `inverse` gives for every element the index of the row which contains it; in particular the rows cover the group. -/
theorem C41_class_of (hT : IsTable elems T) :
    (conjugacyClasses T).2.2.length = elems.length
    ∧ ∀ (k : Nat) y, elems[k]? = some y → ∃ c row, (conjugacyClasses T).2.2[k]? = some c
      ∧ (conjugacyClasses T).1[c]? = some row ∧ row[k]? = some 1 := by
  refine ⟨by simp [conjugacyClasses, uniqueInverse, isConjugate, hT.length], ?_⟩
  intro k y hk
  obtain ⟨row, hrow, hlen, hval⟩ := isConjugate_row hT k y hk
  have hmem : row ∈ uniqueRows (isConjugate T) := (mem_uniqueRows _ _).2 (List.mem_of_getElem? hrow)
  have hlt := List.idxOf_lt_length_iff.2 hmem
  refine ⟨(uniqueIndex (isConjugate T)).length - 1 - (uniqueRows (isConjugate T)).idxOf row, row, ?_, ?_,
    (hval k y hk).1 (conj_refl hT (List.mem_of_getElem? hk))⟩
  · unfold conjugacyClasses
    simp only
    rw [List.getElem?_map, uniqueInverse, List.getElem?_map, hrow]
    rfl
  · unfold conjugacyClasses
    simp only
    have hl : (uniqueIndex (isConjugate T)).length = (uniqueRows (isConjugate T)).length := by simp [uniqueIndex]
    rw [List.getElem?_reverse (by omega), hl]
    rw [show (uniqueRows (isConjugate T)).length - 1 - ((uniqueRows (isConjugate T)).length - 1 -
      (uniqueRows (isConjugate T)).idxOf row) = (uniqueRows (isConjugate T)).idxOf row by omega]
    exact List.getElem?_idxOf hmem

/-! ## Permutation groups -/

/-- the bijection of `0, …, n-1` behind an array. -/
noncomputable def toEquiv (n : Nat) (p : List Int) (hp : IsPerm n p) : Equiv.Perm (Fin n) :=
  Equiv.ofBijective (fun i => ⟨(p.getD i 0).toNat, by have := isPerm_getD n p hp i i.2; omega⟩) (by
    rw [Finite.injective_iff_bijective.symm]
    intro a b h
    simp only [Fin.mk.injEq] at h
    have ha := isPerm_getD n p hp a a.2
    have hb := isPerm_getD n p hp b b.2
    have h' : p.getD a 0 = p.getD b 0 := by omega
    have ha2 : (a : Nat) < p.length := by rw [hp.1]; exact a.2
    have hb2 : (b : Nat) < p.length := by rw [hp.1]; exact b.2
    rw [List.getD_eq_getElem?_getD, List.getD_eq_getElem?_getD, List.getElem?_eq_getElem ha2,
      List.getElem?_eq_getElem hb2] at h'
    exact Fin.ext ((List.Nodup.getElem_inj_iff hp.2.1).1 h'))

open Classical in
/-- the map behind an array acting on arrays from the left: position `p[i]` goes to `i`. -/
noncomputable def toPerm (n : Nat) (p : List Int) : Equiv.Perm (Fin n) :=
  if hp : IsPerm n p then (toEquiv n p hp)⁻¹ else 1

theorem toPerm_apply (n : Nat) (p : List Int) (hp : IsPerm n p) (i j : Fin n) : toPerm n p i = j ↔ p.getD j 0 = (i : Nat) := by
  unfold toPerm
  rw [dif_pos hp, Equiv.Perm.inv_eq_iff_eq]
  rw [show (i = toEquiv n p hp j) ↔ i = ⟨(p.getD j 0).toNat, by have := isPerm_getD n p hp j j.2; omega⟩ from Iff.rfl, Fin.ext_iff]
  simp only
  have := isPerm_getD n p hp j j.2
  omega

theorem toPerm_mul (n : Nat) (p q : List Int) (hp : IsPerm n p) (hq : IsPerm n q) :
    toPerm n (compose p q) = toPerm n p * toPerm n q := by
  ext i
  congr 1
  rw [toPerm_apply n _ (compose_isPerm n p q hp hq)]
  generalize hj : (toPerm n p * toPerm n q) i = j
  rw [Equiv.Perm.mul_apply] at hj
  rw [toPerm_apply n p hp] at hj
  rw [compose_getD _ _ _ (by rw [hp.1]; exact j.2), hj, Int.toNat_natCast]
  exact (toPerm_apply n q hq i _).1 rfl

theorem toPerm_inj (n : Nat) (p q : List Int) (hp : IsPerm n p) (hq : IsPerm n q) (h : toPerm n p = toPerm n q) : p = q := by
  apply ext_getD n p q hp.1 hq.1
  intro k hk
  obtain ⟨h0, h1⟩ := isPerm_getD n p hp k hk
  have e1 : toPerm n p ⟨(p.getD k 0).toNat, by omega⟩ = ⟨k, hk⟩ := (toPerm_apply n p hp _ _).2 (by simp only; omega)
  rw [h, toPerm_apply n q hq] at e1
  simp only at e1
  omega

/-- the table of a permutation group without duplicates is a table in the sense above, products being those of the class
    (`toPerm` turns the products of permutation arrays into products of bijections). -/
theorem C41_permutations (n : Nat) (rows : List (List Int)) (hrows : ∀ p ∈ rows, IsPerm n p) (hnd : rows.Nodup) (T : List (List Nat))
    (h : productTable rows = .ok T) :
    (∀ p ∈ rows, ∀ q ∈ rows, ∃ r, permProd p q = some (.ok r) ∧ toPerm n r = toPerm n p * toPerm n q)
    ∧ IsTable (rows.map (toPerm n)) T := by
  obtain ⟨h1, h2⟩ := C39_product_table n rows hrows T h
  refine ⟨fun p hp q hq => ⟨_, permProd_compose n p q (hrows p hp) (hrows q hq), toPerm_mul n p q (hrows p hp) (hrows q hq)⟩,
    ?_, by rw [h1, List.length_map], ?_⟩
  · exact List.Nodup.map_on (fun a ha b hb hab => toPerm_inj n a b (hrows a ha) (hrows b hb) hab) hnd
  · intro i j g k hi hj
    rw [List.getElem?_map, Option.map_eq_some_iff] at hi hj
    obtain ⟨p, hp, rfl⟩ := hi
    obtain ⟨q, hq, rfl⟩ := hj
    obtain ⟨t, u, r, a1, a2, a3, a4, a5⟩ := h2 i j p q hp hq
    refine ⟨t, u, a1, a3, ?_⟩
    have p1 := hrows p (List.mem_of_getElem? hp)
    have p2 := hrows r (List.mem_of_getElem? a4)
    rw [permProd_compose n p r p1 p2] at a5
    simp only [Option.some.injEq, Except.ok.injEq] at a5
    rw [List.getElem?_map, a4, ← a5, toPerm_mul n p r p1 p2]
    simp

example := C41_permutations 3 [[0, 1, 2], [0, 2, 1], [1, 0, 2], [1, 2, 0], [2, 0, 1], [2, 1, 0]] (by
  intro p hp
  simp only [List.mem_cons, List.not_mem_nil, or_false] at hp
  rcases hp with rfl | rfl | rfl | rfl | rfl | rfl <;> exact ⟨rfl, by decide, by decide⟩) (by decide) _ rfl

/-- the symmetric group of three objects: three classes, with the representatives 0, 1 and 3. -/
example : (productTable [[0, 1, 2], [0, 2, 1], [1, 0, 2], [1, 2, 0], [2, 0, 1], [2, 1, 0]]).map conjugacyClasses
    = .ok ([[1, 0, 0, 0, 0, 0], [0, 1, 1, 0, 0, 1], [0, 0, 0, 1, 1, 0]], [0, 1, 3], [0, 1, 1, 2, 2, 1]) := by decide +kernel

/-- the group with two elements and its product table. -/
theorem exTwo : IsTable ([1, -1] : List ℤˣ) [[0, 1], [1, 0]] := by
  refine ⟨by decide, rfl, ?_⟩
  intro i j g k hi hj
  have h2 : ∀ (l : List ℤˣ) (a b : ℤˣ) n, l = [a, b] → ∀ x, l[n]? = some x → (n = 0 ∧ x = a) ∨ (n = 1 ∧ x = b) := by
    rintro l a b n rfl x hx
    match n, hx with
    | 0, hx => left; simpa [eq_comm] using hx
    | 1, hx => right; simpa [eq_comm] using hx
  rcases h2 _ _ _ _ rfl _ hi with ⟨rfl, rfl⟩ | ⟨rfl, rfl⟩ <;> rcases h2 _ _ _ _ rfl _ hj with ⟨rfl, rfl⟩ | ⟨rfl, rfl⟩ <;>
    exact ⟨_, _, rfl, rfl, by decide⟩

example := C41_conjugacy_table exTwo 1 0 _ _ rfl rfl

example := C41_classes exTwo

example := C41_disjoint exTwo 0 1 (by decide) _ _ rfl rfl

example := C41_class_of exTwo

end Verif.Grp
