import Verif.Model.SpaceGroup
import Verif.Props.SymmFFT

/-! C85: translation and space groups are listed as (translation, point symmetry), translations in row-major order, so that the FFT layers
apply to periodic lattices (C84); C86: with open boundaries they do not. -/

set_option linter.unusedSectionVars false
set_option linter.unusedVariables false

namespace Verif.Grp
open Verif.Hilbert (Err)
open Verif.Symm (cellSub cellSub_lt divmod flat_lt permsOf)

/-! ## Shifts of cells -/

/-- shift by a vector of steps, for the first axes. -/
def shiftCell : List Nat → List Nat → Nat → Nat
  | L :: Ls, k :: ks, c => ((c / Ls.prod + (L - k)) % L) * Ls.prod + shiftCell Ls ks (c % Ls.prod)
  | _, _, c => c

theorem prod_pos (shape : List Nat) (hpos : ∀ L ∈ shape, 0 < L) : 0 < shape.prod := by
  induction shape with
  | nil => simp
  | cons L Ls ih =>
    rw [List.prod_cons]
    exact Nat.mul_pos (hpos L (by simp)) (ih fun M hM => hpos M (by simp [hM]))

theorem shiftCell_lt (shape : List Nat) (hpos : ∀ L ∈ shape, 0 < L) (v : List Nat) (c : Nat) (hc : c < shape.prod) :
    shiftCell shape v c < shape.prod := by
  induction shape generalizing v c with
  | nil => cases v <;> exact hc
  | cons L Ls ih =>
    cases v with
    | nil => exact hc
    | cons k ks =>
      have hP := prod_pos Ls fun M hM => hpos M (by simp [hM])
      rw [shiftCell, List.prod_cons]
      exact flat_lt (Nat.mod_lt _ (hpos L (by simp))) (ih (fun M hM => hpos M (by simp [hM])) ks _ (Nat.mod_lt _ hP))

theorem div_lt (L P c : Nat) (hc : c < L * P) : c / P < L := Nat.div_lt_of_lt_mul (by rw [Nat.mul_comm]; exact hc)

theorem cellBack_eq (shape : List Nat) (hpos : ∀ L ∈ shape, 0 < L) (a c : Nat) (ha : a < shape.length) (hc : c < shape.prod) :
    cellBack shape a c = shiftCell shape (List.replicate a 0 ++ [1]) c := by
  induction shape generalizing a c with
  | nil => simp at ha
  | cons L Ls ih =>
    have hP := prod_pos Ls fun M hM => hpos M (by simp [hM])
    rw [List.prod_cons] at hc
    cases a with
    | zero =>
      simp only [cellBack, List.replicate_zero, List.nil_append, shiftCell]
    | succ a =>
      simp only [cellBack, List.replicate_succ, List.cons_append, shiftCell]
      rw [ih (fun M hM => hpos M (by simp [hM])) a _ (by simpa using ha) (Nat.mod_lt _ hP), Nat.sub_zero, Nat.add_mod_right,
        Nat.mod_eq_of_lt (div_lt L Ls.prod c hc)]

theorem shiftCell_nil (shape : List Nat) (c : Nat) : shiftCell shape [] c = c := by cases shape <;> rfl

theorem axis_step (L x k : Nat) (hk : k + 1 ≤ L) : ((x + (L - k)) % L + (L - 1)) % L = (x + (L - (k + 1))) % L := by
  rw [Nat.mod_add_mod, show x + (L - k) + (L - 1) = (x + (L - (k + 1))) + L by omega, Nat.add_mod_right]

theorem shiftCell_step (shape : List Nat) (hpos : ∀ L ∈ shape, 0 < L) (a k c : Nat) (ha : a < shape.length) (hk : k + 1 ≤ shape.getD a 0)
    (hc : c < shape.prod) :
    shiftCell shape (List.replicate a 0 ++ [1]) (shiftCell shape (List.replicate a 0 ++ [k]) c)
      = shiftCell shape (List.replicate a 0 ++ [k + 1]) c := by
  induction shape generalizing a c with
  | nil => simp at ha
  | cons L Ls ih =>
    have hP := prod_pos Ls fun M hM => hpos M (by simp [hM])
    have hpos' : ∀ M ∈ Ls, 0 < M := fun M hM => hpos M (by simp [hM])
    rw [List.prod_cons] at hc
    cases a with
    | zero =>
      simp only [List.replicate_zero, List.nil_append, shiftCell, shiftCell_nil]
      obtain ⟨d1, d2⟩ := divmod Ls.prod ((c / Ls.prod + (L - k)) % L) (c % Ls.prod) (Nat.mod_lt _ hP)
      rw [d1, d2, axis_step L _ k (by simpa using hk)]
    | succ a =>
      simp only [List.replicate_succ, List.cons_append, shiftCell]
      have hlt := shiftCell_lt Ls hpos' (List.replicate a 0 ++ [k]) (c % Ls.prod) (Nat.mod_lt _ hP)
      obtain ⟨d1, d2⟩ := divmod Ls.prod ((c / Ls.prod + (L - 0)) % L) _ hlt
      rw [d1, d2, ih hpos' a _ (by simpa using ha) (by simpa using hk) (Nat.mod_lt _ hP), Nat.sub_zero, Nat.add_mod_right,
        Nat.add_mod_right, Nat.mod_mod]

theorem shiftCell_append (shape : List Nat) (hpos : ∀ L ∈ shape, 0 < L) (v : List Nat) (k c : Nat) (hv : v.length < shape.length)
    (hc : c < shape.prod) :
    shiftCell shape (List.replicate v.length 0 ++ [k]) (shiftCell shape v c) = shiftCell shape (v ++ [k]) c := by
  induction shape generalizing v c with
  | nil => simp at hv
  | cons L Ls ih =>
    have hP := prod_pos Ls fun M hM => hpos M (by simp [hM])
    have hpos' : ∀ M ∈ Ls, 0 < M := fun M hM => hpos M (by simp [hM])
    rw [List.prod_cons] at hc
    cases v with
    | nil => simp only [List.length_nil, List.replicate_zero, List.nil_append, shiftCell_nil]
    | cons j js =>
      simp only [List.length_cons, List.replicate_succ, List.cons_append, shiftCell]
      have hlt := shiftCell_lt Ls hpos' js (c % Ls.prod) (Nat.mod_lt _ hP)
      obtain ⟨d1, d2⟩ := divmod Ls.prod ((c / Ls.prod + (L - j)) % L) _ hlt
      rw [d1, d2, ih hpos' js _ (by simpa using hv) (Nat.mod_lt _ hP), Nat.sub_zero, Nat.add_mod_right, Nat.mod_mod]

theorem shiftCell_zeros (shape : List Nat) (hpos : ∀ L ∈ shape, 0 < L) (a c : Nat) (hc : c < shape.prod) :
    shiftCell shape (List.replicate a 0) c = c := by
  induction shape generalizing a c with
  | nil => cases a <;> rfl
  | cons L Ls ih =>
    have hP := prod_pos Ls fun M hM => hpos M (by simp [hM])
    rw [List.prod_cons] at hc
    cases a with
    | zero => rfl
    | succ a =>
      rw [List.replicate_succ, shiftCell, ih (fun M hM => hpos M (by simp [hM])) a _ (Nat.mod_lt _ hP), Nat.sub_zero, Nat.add_mod_right,
        Nat.mod_eq_of_lt (div_lt L Ls.prod c hc)]
      exact Nat.div_add_mod' c Ls.prod

/-! ## Arrays -/

/-- the array of a function on sites. -/
def ofFun (n : Nat) (f : Nat → Nat) : List Int := (List.range n).map fun i => ((f i : Nat) : Int)

theorem ofFun_congr (n : Nat) (f g : Nat → Nat) (h : ∀ i < n, f i = g i) : ofFun n f = ofFun n g :=
  List.map_congr_left fun i hi => by rw [h i (List.mem_range.1 hi)]

theorem ofFun_getD (n : Nat) (f : Nat → Nat) (i : Nat) (hi : i < n) : (ofFun n f).getD i 0 = (f i : Int) := by
  unfold ofFun
  rw [List.getD, List.getElem?_map, List.getElem?_range hi]
  rfl

theorem compose_ofFun (n : Nat) (f g : Nat → Nat) (hf : ∀ i < n, f i < n) :
    compose (ofFun n f) (ofFun n g) = ofFun n fun i => g (f i) := by
  unfold compose
  conv_lhs => arg 2; unfold ofFun
  rw [List.map_map]
  refine List.map_congr_left fun i hi => ?_
  have hi' := List.mem_range.1 hi
  simp only [Function.comp_apply, Int.toNat_natCast]
  exact ofFun_getD n g (f i) (hf i hi')

/-- a map of cells, applied to sites. -/
def siteMap (spc : Nat) (h : Nat → Nat) (i : Nat) : Nat := h (i / spc) * spc + i % spc

theorem siteMap_lt (N spc : Nat) (h : Nat → Nat) (hh : ∀ c < N, h c < N) (i : Nat) (hi : i < N * spc) : siteMap spc h i < N * spc := by
  have hs : 0 < spc := by
    rcases Nat.eq_zero_or_pos spc with e | e
    · rw [e] at hi; omega
    · exact e
  exact flat_lt (hh _ (div_lt N spc i hi)) (Nat.mod_lt _ hs)

theorem siteMap_comp (N spc : Nat) (h h' : Nat → Nat) (i : Nat) (hi : i < N * spc) :
    siteMap spc h (siteMap spc h' i) = siteMap spc (fun c => h (h' c)) i := by
  have hs : 0 < spc := by
    rcases Nat.eq_zero_or_pos spc with e | e
    · rw [e] at hi; omega
    · exact e
  unfold siteMap
  obtain ⟨d1, d2⟩ := divmod spc (h' (i / spc)) (i % spc) (Nat.mod_lt _ hs)
  rw [d1, d2]

theorem compose_siteMap (N spc : Nat) (h h' : Nat → Nat) (hh : ∀ c < N, h' c < N) :
    compose (ofFun (N * spc) (siteMap spc h')) (ofFun (N * spc) (siteMap spc h)) = ofFun (N * spc) (siteMap spc fun c => h (h' c)) := by
  rw [compose_ofFun _ _ _ fun i hi => siteMap_lt N spc h' hh i hi]
  exact ofFun_congr _ _ _ fun i hi => siteMap_comp N spc h h' i hi

theorem siteMap_congr (N spc : Nat) (h h' : Nat → Nat) (e : ∀ c < N, h c = h' c) :
    ofFun (N * spc) (siteMap spc h) = ofFun (N * spc) (siteMap spc h') :=
  ofFun_congr _ _ _ fun i hi => by unfold siteMap; rw [e _ (div_lt N spc i hi)]

theorem arange_eq (N spc : Nat) : arange (N * spc) = ofFun (N * spc) (siteMap spc fun c => c) := by
  refine List.map_congr_left fun i _ => ?_
  unfold siteMap
  rw [Nat.div_add_mod']

/-- the array of a shift. -/
def shiftArr (shape : List Nat) (spc : Nat) (v : List Nat) : List Int := ofFun (shape.prod * spc) (siteMap spc (shiftCell shape v))

theorem transByOne_eq (shape : List Nat) (hpos : ∀ L ∈ shape, 0 < L) (spc a : Nat) (ha : a < shape.length) :
    transByOne shape spc a = shiftArr shape spc (List.replicate a 0 ++ [1]) :=
  siteMap_congr shape.prod spc _ _ fun c hc => cellBack_eq shape hpos a c ha hc

theorem transList_eq (shape : List Nat) (hpos : ∀ L ∈ shape, 0 < L) (spc a : Nat) (ha : a < shape.length) (k : Nat)
    (hk : k ≤ shape.getD a 0) :
    transList (transByOne shape spc a) (shape.prod * spc) k
      = (List.range k).map fun j => shiftArr shape spc (List.replicate a 0 ++ [j]) := by
  induction k with
  | zero => rfl
  | succ k ih =>
    cases k with
    | zero =>
      simp only [transList]
      rw [arange_eq]
      have : shiftArr shape spc (List.replicate a 0 ++ [0]) = ofFun (shape.prod * spc) (siteMap spc fun c => c) := by
        refine siteMap_congr shape.prod spc _ _ fun c hc => ?_
        rw [show List.replicate a 0 ++ [0] = List.replicate (a + 1) 0 from List.replicate_succ'.symm]
        exact shiftCell_zeros shape hpos (a + 1) c hc
      simp [this]
    | succ k =>
      simp only [transList]
      rw [ih (by omega), List.range_succ (n := k + 1), List.map_append]
      congr 1
      simp only [List.map_cons, List.map_nil, List.cons.injEq, and_true]
      rw [List.getD, List.getElem?_map, List.getElem?_range (by omega)]
      simp only [Option.map_some, Option.getD_some]
      rw [transByOne_eq shape hpos spc a ha]
      unfold shiftArr
      rw [compose_siteMap shape.prod spc _ _ fun c hc => shiftCell_lt shape hpos _ c hc]
      exact siteMap_congr shape.prod spc _ _ fun c hc => shiftCell_step shape hpos a k c ha (by omega) hc

/-- all vectors of steps for the given extents, the last one fastest. -/
def vectors : List Nat → List (List Nat)
  | [] => [[]]
  | L :: Ls => (List.range L).flatMap fun k => (vectors Ls).map fun v => k :: v

theorem vectors_append (pre : List Nat) (L : Nat) :
    vectors (pre ++ [L]) = (vectors pre).flatMap fun v => (List.range L).map fun k => v ++ [k] := by
  induction pre with
  | nil =>
    simp [vectors, List.map_eq_flatMap]
  | cons M pre ih =>
    simp only [List.cons_append, vectors, ih, List.flatMap_assoc, List.map_flatMap, List.flatMap_map, List.map_map]
    rfl

theorem vectors_length (ls : List Nat) (v : List Nat) (hv : v ∈ vectors ls) : v.length = ls.length := by
  induction ls generalizing v with
  | nil => simp [vectors] at hv; simp [hv]
  | cons L Ls ih =>
    simp only [vectors, List.mem_flatMap, List.mem_map] at hv
    obtain ⟨k, _, u, hu, rfl⟩ := hv
    simp [ih u hu]

/-- coordinates of a cell. -/
def coords : List Nat → Nat → List Nat
  | [], _ => []
  | _ :: Ls, t => (t / Ls.prod) :: coords Ls (t % Ls.prod)

theorem range_mul_flatMap (a b : Nat) : List.range (a * b) = (List.range a).flatMap fun i => (List.range b).map fun j => i * b + j := by
  induction a with
  | zero => simp
  | succ a ih =>
    rw [Nat.succ_mul, List.range_add, ih, List.range_succ, List.flatMap_append]
    simp

theorem vectors_eq (ls : List Nat) : vectors ls = (List.range ls.prod).map (coords ls) := by
  induction ls with
  | nil => rfl
  | cons L Ls ih =>
    rw [List.prod_cons, range_mul_flatMap, List.map_flatMap]
    simp only [vectors, ih]
    rw [List.flatMap_def, List.flatMap_def]
    congr 1
    refine List.map_congr_left fun k _ => ?_
    rw [List.map_map, List.map_map]
    refine List.map_congr_left fun j hj => ?_
    obtain ⟨d1, d2⟩ := divmod Ls.prod k j (List.mem_range.1 hj)
    simp only [Function.comp_apply, coords, d1, d2]

theorem shiftCell_coords (shape : List Nat) (t c : Nat) (hc : c < shape.prod) : shiftCell shape (coords shape t) c = cellSub shape c t := by
  induction shape generalizing t c with
  | nil => simpa [shiftCell, coords, cellSub] using hc
  | cons L Ls ih =>
    rw [List.prod_cons] at hc
    have hP : 0 < Ls.prod := by
      rcases Nat.eq_zero_or_pos Ls.prod with h | h
      · rw [h] at hc; omega
      · exact h
    rw [coords, shiftCell, cellSub, ih _ _ (Nat.mod_lt _ hP)]

theorem axes_fold (shape : List Nat) (hpos : ∀ L ∈ shape, 0 < L) (pbc : List Bool) (hp : ∀ a < shape.length, pbc.getD a false = true)
    (spc : Nat) : ∀ (k : Nat), k + 1 ≤ shape.length →
    (List.range' 1 k).foldl (fun g a => matmul g (axisTranslations shape pbc spc a)) (axisTranslations shape pbc spc 0)
      = (vectors (shape.take (k + 1))).map (shiftArr shape spc) := by
  have hax : ∀ a < shape.length, axisTranslations shape pbc spc a
      = (List.range (shape.getD a 0)).map fun j => shiftArr shape spc (List.replicate a 0 ++ [j]) := by
    intro a ha
    unfold axisTranslations
    rw [if_pos (hp a ha)]
    exact transList_eq shape hpos spc a ha _ (le_refl _)
  intro k
  induction k with
  | zero =>
    intro hk
    rw [List.range'_zero, List.foldl_nil, hax 0 (by omega)]
    cases shape with
    | nil => simp at hk
    | cons L Ls =>
      have e : vectors [L] = (List.range L).map fun k => [k] := by simp [vectors, List.map_eq_flatMap]
      rw [show (L :: Ls).take (0 + 1) = [L] from rfl, e, List.map_map]
      rfl
  | succ k ih =>
    intro hk
    rw [List.range'_concat, List.foldl_append, ih (by omega), List.foldl_cons, List.foldl_nil,
      show 1 + 1 * k = k + 1 by omega, hax (k + 1) (by omega)]
    have htake : shape.take (k + 1 + 1) = shape.take (k + 1) ++ [shape.getD (k + 1) 0] := by
      rw [List.take_succ_eq_append_getElem (show k + 1 < shape.length by omega), List.getD, List.getElem?_eq_getElem (by omega)]
      rfl
    rw [htake, vectors_append, List.map_flatMap, matmul, List.flatMap_map]
    rw [List.flatMap_def, List.flatMap_def]
    congr 1
    refine List.map_congr_left fun v hv => ?_
    rw [List.map_map, List.map_map]
    refine List.map_congr_left fun j _ => ?_
    have hl : v.length = k + 1 := by
      rw [vectors_length _ v hv, List.length_take]
      omega
    simp only [Function.comp_apply]
    unfold shiftArr
    rw [compose_siteMap shape.prod spc _ _ fun c hc => shiftCell_lt shape hpos _ c hc]
    refine siteMap_congr shape.prod spc _ _ fun c hc => ?_
    rw [← hl]
    exact shiftCell_append shape hpos v j c (by omega) hc

/-- C85: on a periodic lattice the translation group has one element for each cell `t`, in the order of the cells; element `t` reads
    site (c, s) at (c - t, s). -/
theorem C85_translation_rows (shape : List Nat) (hne : shape ≠ []) (hpos : ∀ L ∈ shape, 0 < L) (pbc : List Bool)
    (hp : ∀ a < shape.length, pbc.getD a false = true) (spc : Nat) :
    translationGroup shape pbc spc = .ok ((List.range shape.prod).map fun t =>
      (List.range (shape.prod * spc)).map fun i : Nat => ((cellSub shape (i / spc) t * spc + i % spc : Nat) : Int)) := by
  cases shape with
  | nil => exact absurd rfl hne
  | cons L Ls =>
    simp only [translationGroup]
    rw [axes_fold (L :: Ls) hpos pbc hp spc Ls.length (by simp)]
    rw [List.take_of_length_le (by simp), vectors_eq, List.map_map]
    congr 1
    refine List.map_congr_left fun t _ => ?_
    exact siteMap_congr (L :: Ls).prod spc _ _ fun c hc => shiftCell_coords (L :: Ls) t c hc

/-! ## Arithmetic of cells -/

theorem axis_cancel (L x t c : Nat) (hx : x < L) (ht : t < L) (hc : c < L) :
    ((x + (L - c)) % L + (L - (t + (L - c)) % L)) % L = (x + (L - t)) % L := by
  have e1 : (t + (L - c)) % L = if c ≤ t then t - c else t + (L - c) := by
    split
    · rw [show t + (L - c) = (t - c) + L by omega, Nat.add_mod_right, Nat.mod_eq_of_lt (by omega)]
    · exact Nat.mod_eq_of_lt (by omega)
  rw [e1, Nat.mod_add_mod]
  split
  · rw [show x + (L - c) + (L - (t - c)) = (x + (L - t)) + L by omega, Nat.add_mod_right]
  · rw [show x + (L - c) + (L - (t + (L - c))) = x + (L - t) by omega]

theorem cellSub_cancel (shape : List Nat) (hpos : ∀ L ∈ shape, 0 < L) (x t c : Nat) (hx : x < shape.prod) (ht : t < shape.prod)
    (hc : c < shape.prod) : cellSub shape (cellSub shape x c) (cellSub shape t c) = cellSub shape x t := by
  induction shape generalizing x t c with
  | nil => rfl
  | cons L Ls ih =>
    have hpos' : ∀ M ∈ Ls, 0 < M := fun M hM => hpos M (by simp [hM])
    have hP := prod_pos Ls hpos'
    rw [List.prod_cons] at hx ht hc
    simp only [cellSub]
    obtain ⟨d1, d2⟩ := divmod Ls.prod ((x / Ls.prod + (L - c / Ls.prod)) % L) _ (cellSub_lt Ls (x % Ls.prod) (c % Ls.prod) hpos')
    obtain ⟨d3, d4⟩ := divmod Ls.prod ((t / Ls.prod + (L - c / Ls.prod)) % L) _ (cellSub_lt Ls (t % Ls.prod) (c % Ls.prod) hpos')
    rw [d1, d2, d3, d4, ih hpos' _ _ _ (Nat.mod_lt _ hP) (Nat.mod_lt _ hP) (Nat.mod_lt _ hP),
      axis_cancel L _ _ _ (div_lt L Ls.prod x hx) (div_lt L Ls.prod t ht) (div_lt L Ls.prod c hc)]

theorem cellSub_self (shape : List Nat) (hpos : ∀ L ∈ shape, 0 < L) (c : Nat) (hc : c < shape.prod) : cellSub shape c c = 0 := by
  induction shape generalizing c with
  | nil => rfl
  | cons L Ls ih =>
    have hpos' : ∀ M ∈ Ls, 0 < M := fun M hM => hpos M (by simp [hM])
    have hP := prod_pos Ls hpos'
    rw [List.prod_cons] at hc
    have h0 := div_lt L Ls.prod c hc
    rw [cellSub, ih hpos' _ (Nat.mod_lt _ hP), show c / Ls.prod + (L - c / Ls.prod) = L by omega, Nat.mod_self]
    omega

theorem cellSub_zero (shape : List Nat) (hpos : ∀ L ∈ shape, 0 < L) (c : Nat) (hc : c < shape.prod) : cellSub shape c 0 = c := by
  induction shape generalizing c with
  | nil => simp at hc; simp [cellSub, hc]
  | cons L Ls ih =>
    have hpos' : ∀ M ∈ Ls, 0 < M := fun M hM => hpos M (by simp [hM])
    have hP := prod_pos Ls hpos'
    rw [List.prod_cons] at hc
    have h0 := div_lt L Ls.prod c hc
    rw [cellSub, Nat.zero_mod, Nat.zero_div, ih hpos' _ (Nat.mod_lt _ hP), Nat.sub_zero, Nat.add_mod_right, Nat.mod_eq_of_lt h0]
    exact Nat.div_add_mod' c Ls.prod

/-! ## The space group -/

theorem getD_matmul (A B : List (List Int)) (t p : Nat) (ht : t < A.length) (hp : p < B.length) :
    (matmul A B).getD (t * B.length + p) [] = compose (A.getD t []) (B.getD p []) := by
  induction A generalizing t with
  | nil => simp at ht
  | cons a A ih =>
    cases t with
    | zero =>
      rw [matmul, List.flatMap_cons, Nat.zero_mul, Nat.zero_add, List.getD, List.getElem?_append_left (by simpa using hp),
        List.getElem?_map, List.getElem?_eq_getElem hp]
      rw [List.getD, List.getD, List.getElem?_eq_getElem hp]
      rfl
    | succ t =>
      have e : (t + 1) * B.length + p = (B.map fun b => compose a b).length + (t * B.length + p) := by
        rw [List.length_map, Nat.succ_mul]; omega
      rw [matmul, List.flatMap_cons, e, List.getD, List.getElem?_append_right (Nat.le_add_right _ _), Nat.add_sub_cancel_left,
        ← List.getD, ← matmul, ih t (by simpa using ht)]
      simp

theorem matmul_length (A B : List (List Int)) : (matmul A B).length = A.length * B.length := by
  induction A with
  | nil => simp [matmul]
  | cons a A ih =>
    have : matmul (a :: A) B = B.map (fun b => compose a b) ++ matmul A B := rfl
    rw [this, List.length_append, List.length_map, ih, List.length_cons, Nat.succ_mul]
    omega

theorem spaceGroup_entry (shape : List Nat) (hne : shape ≠ []) (hpos : ∀ L ∈ shape, 0 < L) (pbc : List Bool)
    (hp : ∀ a < shape.length, pbc.getD a false = true) (spc : Nat) (P : List (List Int)) (sg : List (List Int))
    (h : spaceGroup shape pbc spc P = .ok sg) :
    sg.length = shape.prod * P.length ∧ ∀ t < shape.prod, ∀ p < P.length, ∀ i < shape.prod * spc,
      permsOf sg (t * P.length + p) i = permsOf P p (siteMap spc (fun c => cellSub shape c t) i) := by
  rw [spaceGroup, C85_translation_rows shape hne hpos pbc hp spc] at h
  simp only [Except.ok.injEq] at h
  subst h
  refine ⟨by rw [matmul_length]; simp, fun t ht p hpp i hi => ?_⟩
  unfold permsOf
  rw [getD_matmul _ _ t p (by simpa using ht) hpp]
  have e : ((List.range shape.prod).map fun t =>
      (List.range (shape.prod * spc)).map fun i : Nat => ((cellSub shape (i / spc) t * spc + i % spc : Nat) : Int)).getD t []
      = ofFun (shape.prod * spc) (siteMap spc fun c => cellSub shape c t) := by
    rw [List.getD, List.getElem?_map, List.getElem?_range ht]
    rfl
  rw [e, Verif.Symm.getD_compose _ _ i (by simpa [ofFun] using hi), ofFun_getD _ _ i hi, Int.toNat_natCast]

/-- C85: the rows of the space group of a periodic lattice are ordered as the FFT layers assume, whatever the point group. -/
theorem C85_space_group_rows (shape : List Nat) (hne : shape ≠ []) (hpos : ∀ L ∈ shape, 0 < L) (pbc : List Bool)
    (hp : ∀ a < shape.length, pbc.getD a false = true) (spc : Nat) (P : List (List Int)) :
    ∃ sg, spaceGroup shape pbc spc P = .ok sg ∧ sg.length = shape.prod * P.length
      ∧ fftSetup sg.length shape.prod = .ok P.length ∧ Verif.Symm.TranslationRows shape P.length spc (permsOf sg) := by
  have hex : ∃ sg, spaceGroup shape pbc spc P = .ok sg := by
    rw [spaceGroup, C85_translation_rows shape hne hpos pbc hp spc]
    exact ⟨_, rfl⟩
  obtain ⟨sg, hsg⟩ := hex
  obtain ⟨hl, he⟩ := spaceGroup_entry shape hne hpos pbc hp spc P sg hsg
  have hN := prod_pos shape hpos
  refine ⟨sg, hsg, hl, ?_, ?_⟩
  · unfold fftSetup
    rw [hl, Nat.mul_div_cancel_left _ hN]
    simp
  · intro t ht c hc p hpp s hs
    have hu := cellSub_lt shape t c hpos
    have hs' : s < shape.prod * spc := by simpa using flat_lt hN hs
    rw [he t ht p hpp _ (flat_lt hc hs), he _ hu p hpp s hs']
    congr 1
    obtain ⟨d1, d2⟩ := divmod spc c s hs
    unfold siteMap
    rw [d1, d2, Nat.div_eq_of_lt hs, Nat.mod_eq_of_lt hs]
    congr 2
    have := cellSub_cancel shape hpos c t c hc ht hc
    rw [cellSub_self shape hpos c hc] at this
    exact this.symm

/-- C85: the product table of such a space group is invariant under translations. -/
theorem C85_space_group_table (shape : List Nat) (hne : shape ≠ []) (hpos : ∀ L ∈ shape, 0 < L) (pbc : List Bool)
    (hp : ∀ a < shape.length, pbc.getD a false = true) (spc : Nat) (P : List (List Int)) (sg : List (List Int))
    (h : spaceGroup shape pbc spc P = .ok sg) (hrows : ∀ p ∈ sg, IsPerm (shape.prod * spc) p) (hnd : sg.Nodup)
    (hclosed : ∀ p ∈ sg, ∀ q ∈ sg, ∃ r ∈ sg, permProd p q = some (.ok r)) (T : List (List Nat)) (hT : productTable sg = .ok T) :
    Verif.Symm.TranslationTable shape P.length (entry T) := by
  obtain ⟨hl, he⟩ := spaceGroup_entry shape hne hpos pbc hp spc P sg h
  have G := Verif.Symm.permsOf_group _ sg hrows hnd hclosed
  have PT := Verif.Symm.permsOf_table _ sg hrows T hT
  rw [hl] at G PT
  refine Verif.Symm.translationTable_of_rows shape hpos P.length spc (permsOf sg) (entry T) G PT
    (fun c i => siteMap spc (fun d => cellSub shape d c) i) ?_ ?_ fun t ht => cellSub_self shape hpos t ht
  · intro c hc i hi
    exact siteMap_lt shape.prod spc _ (fun d hd => cellSub_lt shape d c hpos) i hi
  · intro t ht c hc p hpp i hi
    have hlt := siteMap_lt shape.prod spc (fun d => cellSub shape d c) (fun d hd => cellSub_lt shape d c hpos) i hi
    rw [he t ht p hpp i hi, he _ (cellSub_lt shape t c hpos) p hpp _ hlt, siteMap_comp shape.prod spc _ _ i hi]
    congr 1
    unfold siteMap
    beta_reduce
    rw [cellSub_cancel shape hpos _ t c (div_lt shape.prod spc i hi) ht hc]

/-- C84, from the API: DenseSymm and DenseEquivariant in mode "fft" on a periodic lattice give the results of mode "matrix", entry by
    entry, for the space group built by the lattice from any point group for which it is a group. -/
theorem C84_lattice (shape : List Nat) (hne : shape ≠ []) (hpos : ∀ L ∈ shape, 0 < L) (pbc : List Bool)
    (hp : ∀ a < shape.length, pbc.getD a false = true) (spc : Nat) (P : List (List Int)) (sg : List (List Int))
    (h : spaceGroup shape pbc spc P = .ok sg) (hrows : ∀ p ∈ sg, IsPerm (shape.prod * spc) p) (hnd : sg.Nodup)
    (hclosed : ∀ p ∈ sg, ∀ q ∈ sg, ∃ r ∈ sg, permProd p q = some (.ok r)) :
    fftSetup sg.length shape.prod = .ok P.length
    ∧ (∀ (F : Nat) (bias : Option (Nat → ℂ)) (w : Nat → Nat → ℂ) (x : Nat → ℂ), ∀ f < F, ∀ q < sg.length,
        Verif.Symm.denseSymmFFT shape P.length spc (permsOf sg) bias w x f q
          = Verif.Symm.denseSymm (shape.prod * spc) sg.length F (permsOf sg) none bias (fun k l => w l k) x f q)
    ∧ ∃ T, productTable sg = .ok T
      ∧ (∀ (inF : Nat) (bias : Option (Nat → ℂ)) (w : Nat → Nat → Nat → ℂ) (x : Nat → Nat → ℂ) (o : Nat), ∀ q < sg.length,
        Verif.Symm.denseEquivFFT shape inF P.length (entry T) bias w x o q
          = Verif.Symm.denseEquivMatrix inF sg.length (entry T) none bias w x (o * sg.length + q))
      ∧ ∀ (inF outF : Nat) (bias : Option (Nat → ℂ)) (w : Nat → Nat → Nat → ℂ),
        Verif.Symm.Equivariant (shape.prod * spc) sg.length (permsOf sg) inF outF (Verif.Symm.denseEquivFFT shape inF P.length (entry T) bias w) := by
  obtain ⟨sg', h', hl, hfft, hTR⟩ := C85_space_group_rows shape hne hpos pbc hp spc P
  rw [h] at h'
  obtain rfl := Except.ok.inj h'
  obtain ⟨_, T, hT⟩ := C39_closed _ sg hrows hclosed
  have hTT := C85_space_group_table shape hne hpos pbc hp spc P sg h hrows hnd hclosed T hT
  have G := Verif.Symm.permsOf_group _ sg hrows hnd hclosed
  have PT := Verif.Symm.permsOf_table _ sg hrows T hT
  refine ⟨hfft, ?_, T, hT, ?_, ?_⟩
  · intro F bias w x f hf q hq
    rw [hl] at hq ⊢
    exact Verif.Symm.C84_symm_agree shape hpos P.length spc F (permsOf sg) hTR bias w x f hf q hq
  · intro inF bias w x o q hq
    rw [hl] at hq G PT ⊢
    exact Verif.Symm.C84_equiv_agree shape hpos inF P.length (entry T) hTT (fun g hg l hl' => (PT g hg l hl').1) bias w x o q hq
  · intro inF outF bias w
    rw [hl] at G PT ⊢
    exact Verif.Symm.C84_equivariant _ shape hpos P.length (permsOf sg) (entry T) G PT hTT inF outF bias w

/-! ## Open boundaries -/

/-- along an open axis only the identity is listed; so an open lattice has fewer translations than cells. -/
theorem C86_open_translations (L spc : Nat) : translationGroup [L] [false] spc = .ok [arange (L * spc)] := by
  simp [translationGroup, axisTranslations]

/-- C127: the FFT layers cannot be built for an open chain of three or more sites with its default point group (identity and
    reflection): the space group has two elements for `L` cells. -/
theorem C127_open_chain_refuted (L : Nat) (hL : 3 ≤ L) (refl : List Int) :
    ∃ sg, spaceGroup [L] [false] 1 [arange L, refl] = .ok sg ∧ fftSetup sg.length L = .error .valueError := by
  refine ⟨_, by rw [spaceGroup, C86_open_translations], ?_⟩
  have : (matmul [arange (L * 1)] [arange L, refl]).length = 2 := rfl
  rw [this]
  unfold fftSetup
  have : 2 / L = 0 := Nat.div_eq_of_lt (by omega)
  simp [this]

/-- C86: they can be built exactly if the number of cells divides the order of the space group; for a periodic lattice it always does. -/
theorem C86_setup (nRows nCells : Nat) (h : 0 < nCells) : (∃ m, fftSetup nRows nCells = .ok m) ↔ nCells ∣ nRows := by
  unfold fftSetup
  constructor
  · rintro ⟨m, hm⟩
    by_cases e : nCells * (nRows / nCells) = nRows
    · exact ⟨_, e.symm⟩
    · simp [e] at hm
  · intro hd
    exact ⟨nRows / nCells, if_pos (Nat.mul_div_cancel' hd)⟩

/-! ## Examples -/

/-- a 2 × 3 lattice with two sites per cell. -/
example : translationGroup [2, 3] [true, true] 2 = .ok
    [[0, 1, 2, 3, 4, 5, 6, 7, 8, 9, 10, 11], [4, 5, 0, 1, 2, 3, 10, 11, 6, 7, 8, 9], [2, 3, 4, 5, 0, 1, 8, 9, 10, 11, 6, 7],
     [6, 7, 8, 9, 10, 11, 0, 1, 2, 3, 4, 5], [10, 11, 6, 7, 8, 9, 4, 5, 0, 1, 2, 3], [8, 9, 10, 11, 6, 7, 2, 3, 4, 5, 0, 1]] := by
  decide +kernel

/-- hypotheses of `C84_lattice` for a ring of four sites with its reflection. -/
example : ∃ sg, spaceGroup [4] [true] 1 [[0, 1, 2, 3], [0, 3, 2, 1]] = .ok sg ∧ (∀ p ∈ sg, IsPerm 4 p) ∧ sg.Nodup
    ∧ ∀ p ∈ sg, ∀ q ∈ sg, ∃ r ∈ sg, permProd p q = some (.ok r) := by
  refine ⟨[[0, 1, 2, 3], [0, 3, 2, 1], [3, 0, 1, 2], [1, 0, 3, 2], [2, 3, 0, 1], [2, 1, 0, 3], [1, 2, 3, 0], [3, 2, 1, 0]],
    by decide +kernel, ?_, by decide +kernel, by decide +kernel⟩
  unfold IsPerm
  decide +kernel

example : spaceGroup [4] [false] 1 [[0, 1, 2, 3], [3, 2, 1, 0]] = .ok [[0, 1, 2, 3], [3, 2, 1, 0]] ∧ fftSetup 2 4 = .error .valueError := by
  decide +kernel

end Verif.Grp
