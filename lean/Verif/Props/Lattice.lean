import Verif.Lemmas.LatticeBuild
import Mathlib.Algebra.Order.Field.Basic
import Mathlib.Algebra.Order.Floor.Ring
import Mathlib.Tactic.FieldSimp
import Mathlib.Tactic.NormNum
import Mathlib.Data.Rat.Floor

/-! C34 (site numbering), C35 (edges of Grid), C37 (all sites are nodes). -/

set_option linter.unusedSectionVars false
set_option linter.unusedVariables false

namespace Verif.Lat
open Verif.Hilbert (Err)

/-! ## Specification of the hypercubic lattice -/

/-- `c'` is one unit ahead of `c` along exactly one direction. -/
def UnitStep : List Int → List Int → Prop
  | x :: xs, y :: ys => (y = x + 1 ∧ xs = ys) ∨ (x = y ∧ UnitStep xs ys)
  | _, _ => False

/-- the same on the torus: along a periodic direction the last cell is followed by the first one. -/
def WrapStep : List Nat → List Bool → List Int → List Int → Prop
  | e :: es, p :: ps, x :: xs, y :: ys =>
    ((y = x + 1 ∨ (p = true ∧ x = (e : Int) - 1 ∧ y = 0)) ∧ xs = ys) ∨ (x = y ∧ WrapStep es ps xs ys)
  | _, _, _, _ => False

/-- some direction has two cells or is periodic. -/
def Extended (ext : List Nat) (pbc : List Bool) : Prop := ∃ q ∈ ext.zip pbc, q.2 = true ∨ 2 ≤ q.1

/-- mixed radix value of a coordinate, last index fastest. -/
def radix : List Nat → List Int → Int
  | _ :: ds, x :: xs => x * ((ds.prod : Nat) : Int) + radix ds xs
  | _, _ => 0

/-! ## Distances on the integer lattice -/

theorem sqDist_nonneg (a b : List Int) : 0 ≤ sqDist a b := by
  induction a generalizing b with
  | nil => cases b <;> simp [sqDist]
  | cons x xs ih =>
    cases b with
    | nil => simp [sqDist]
    | cons y ys =>
      rw [sqDist]
      have := ih ys
      have := mul_self_nonneg (x - y)
      omega

theorem sqDist_comm (a b : List Int) : sqDist a b = sqDist b a := by
  induction a generalizing b with
  | nil => cases b <;> rfl
  | cons x xs ih =>
    cases b with
    | nil => rfl
    | cons y ys => rw [sqDist, sqDist, ih]; ring

theorem sqDist_eq_zero (a b : List Int) (h : a.length = b.length) : sqDist a b = 0 ↔ a = b := by
  induction a generalizing b with
  | nil => cases b <;> simp_all [sqDist]
  | cons x xs ih =>
    cases b with
    | nil => simp at h
    | cons y ys =>
      rw [sqDist, List.cons.injEq, ← ih ys (by simpa using h)]
      have h1 := sqDist_nonneg xs ys
      have h2 := mul_self_nonneg (x - y)
      constructor
      · intro h3
        have h4 : (x - y) * (x - y) = 0 := by omega
        have h5 := mul_self_eq_zero.1 h4
        exact ⟨by omega, by omega⟩
      · rintro ⟨rfl, h3⟩
        rw [h3]; ring

theorem sq_small (d : Int) (h : d * d ≤ 1) : d = 0 ∨ d = 1 ∨ d = -1 := by
  have h1 : d ≤ 1 := by nlinarith
  have h2 : -1 ≤ d := by nlinarith
  omega

theorem sqDist_eq_one (a b : List Int) (h : a.length = b.length) :
    sqDist a b = 1 ↔ UnitStep a b ∨ UnitStep b a := by
  induction a generalizing b with
  | nil => cases b <;> simp_all [sqDist, UnitStep]
  | cons x xs ih =>
    cases b with
    | nil => simp at h
    | cons y ys =>
      have hl : xs.length = ys.length := by simpa using h
      have h1 := sqDist_nonneg xs ys
      have hz := sqDist_eq_zero xs ys hl
      have ih' := ih ys hl
      rw [sqDist, UnitStep, UnitStep]
      constructor
      · intro h3
        rcases sq_small (x - y) (by omega) with h4 | h4 | h4
        · rw [h4] at h3
          rcases ih'.1 (by omega) with h5 | h5
          · exact Or.inl (Or.inr ⟨by omega, h5⟩)
          · exact Or.inr (Or.inr ⟨by omega, h5⟩)
        · rw [h4] at h3
          have h5 := hz.1 (by omega)
          exact Or.inr (Or.inl ⟨by omega, h5.symm⟩)
        · rw [h4] at h3
          have h5 := hz.1 (by omega)
          exact Or.inl (Or.inl ⟨by omega, h5⟩)
      · rintro ((⟨rfl, rfl⟩ | ⟨rfl, h5⟩) | (⟨rfl, rfl⟩ | ⟨rfl, h5⟩))
        · rw [hz.2 rfl]; ring
        · rw [ih'.2 (Or.inl h5)]; ring
        · rw [hz.2 rfl]; ring
        · rw [ih'.2 (Or.inr h5)]; ring

theorem gridNear_comm (a b : List Int) : gridNear a b = gridNear b a := by
  unfold gridNear
  rw [sqDist_comm]

theorem gridNear_self (a : List Int) : gridNear a a = none := by
  unfold gridNear
  rw [(sqDist_eq_zero a a rfl).2 rfl]
  rfl

theorem closest_grid (cs : List (List Int)) (c c' : List Int) : Closest gridNear cs c c' ↔ sqDist c c' = 1 := by
  unfold Closest gridNear
  constructor
  · rintro ⟨m, h, _⟩
    by_contra hc
    rw [if_neg hc] at h
    simp at h
  · intro h
    refine ⟨3326400, if_pos h, ?_⟩
    intro a _ b _ m' hm
    split_ifs at hm with hs
    simp only [Option.some.injEq] at hm
    omega

theorem cart_length (rs : List (List Int)) (c : List Int) (h : c ∈ cart rs) : c.length = rs.length := by
  induction rs generalizing c with
  | nil => rw [mem_cart_nil] at h; subst h; rfl
  | cons r rs ih =>
    obtain ⟨x, xs, rfl, _, hxs⟩ := (mem_cart_cons _ _ _).1 h
    rw [List.length_cons, ih xs hxs, List.length_cons]

theorem wrap_unit (ext : List Nat) (pbc : List Bool) (nb : Nat) (hlen : ext.length = pbc.length)
    (hpos : ∀ e ∈ ext, 0 < e) (hnb : nb = 1) (c c' : List Int) (hc : c ∈ shell ext pbc nb) (hc' : c' ∈ shell ext pbc nb)
    (h : UnitStep c c') : WrapStep ext pbc (wrap ext c) (wrap ext c') := by
  induction ext generalizing pbc c c' with
  | nil =>
    cases pbc with
    | cons p ps => simp at hlen
    | nil =>
      exfalso
      subst hnb
      obtain ⟨x, xs, rfl, hx, hxs⟩ := (mem_cart_cons _ _ _).1 hc
      obtain ⟨y, ys, rfl, hy, hys⟩ := (mem_cart_cons _ _ _).1 hc'
      rw [mem_cart_nil] at hxs hys
      subst hxs hys
      have hx' := (mem_upto 1 x).1 hx
      have hy' := (mem_upto 1 y).1 hy
      simp only [UnitStep, and_true, and_false, or_false] at h
      push_cast at hx' hy'
      omega
  | cons e es ih =>
    cases pbc with
    | nil => simp at hlen
    | cons p ps =>
      obtain ⟨x, xs, rfl, hx, hxs⟩ := (mem_cart_cons _ _ _).1 hc
      obtain ⟨y, ys, rfl, hy, hys⟩ := (mem_cart_cons _ _ _).1 hc'
      rw [wrap, wrap, WrapStep]
      rw [UnitStep] at h
      rcases h with ⟨rfl, rfl⟩ | ⟨rfl, h⟩
      · left
        refine ⟨?_, rfl⟩
        have he : 0 < e := hpos e (by simp)
        rw [mem_axisRange] at hx hy
        cases p with
        | false =>
          simp only [Bool.false_eq_true, if_false] at hx hy
          left
          rw [Int.emod_eq_of_lt hx.1 hx.2, Int.emod_eq_of_lt hy.1 hy.2]
        | true =>
          simp only [if_true] at hx hy
          by_cases h1 : x = -1
          · subst h1
            right
            refine ⟨rfl, ?_, by simp⟩
            have h2 : (-1 : Int) % (e : Int) = ((e : Int) - 1) % (e : Int) := by
              rw [← Int.add_emod_right (-1) (e : Int)]
              congr 1
            rw [h2, Int.emod_eq_of_lt (by omega) (by omega)]
          · by_cases h3 : x + 1 = e
            · right
              refine ⟨rfl, ?_, ?_⟩
              · rw [Int.emod_eq_of_lt (by omega) (by omega)]; omega
              · rw [h3, Int.emod_self]
            · left
              rw [Int.emod_eq_of_lt (by omega) (by omega), Int.emod_eq_of_lt (by omega) (by omega)]
      · right
        exact ⟨rfl, ih ps (by simpa using hlen) (fun e he => hpos e (List.mem_cons_of_mem _ he)) xs ys hxs hys h⟩

theorem unwrap_step (ext : List Nat) (pbc : List Bool) (nb : Nat) (hlen : ext.length = pbc.length)
    (u v : List Int) (hu : u ∈ inner ext nb) (hv : v ∈ inner ext nb)
    (h : WrapStep ext pbc u v) : ∃ c' ∈ shell ext pbc nb, UnitStep u c' ∧ wrap ext c' = v := by
  induction ext generalizing pbc u v with
  | nil => simp [WrapStep] at h
  | cons e es ih =>
    cases pbc with
    | nil => simp at hlen
    | cons p ps =>
      have hl : es.length = ps.length := by simpa using hlen
      have hvs := (inner_subset (e :: es) (p :: ps) nb hlen v).1 hv
      obtain ⟨x, xs, rfl, hx, hxs⟩ := (mem_cart_cons _ _ _).1 hu
      obtain ⟨y, ys, rfl, hy, hys⟩ := (mem_cart_cons _ _ _).1 hv
      rw [mem_upto] at hx hy
      rw [WrapStep] at h
      rcases h with ⟨h1, rfl⟩ | ⟨rfl, h2⟩
      · rcases h1 with rfl | ⟨rfl, rfl, rfl⟩
        · exact ⟨(x + 1) :: xs, hvs.1, Or.inl ⟨rfl, rfl⟩, wrap_inside _ _ hvs.2⟩
        · have hs := (inner_subset es ps nb hl xs).1 hxs
          refine ⟨(e : Int) :: xs, (mem_cart_cons _ _ _).2 ⟨_, _, rfl, ?_, hs.1⟩, Or.inl ⟨by omega, rfl⟩, ?_⟩
          · rw [mem_axisRange]; simp
          · rw [wrap, Int.emod_self, wrap_inside es xs hs.2]
      · obtain ⟨c', h3, h4, h5⟩ := ih ps hl xs ys hxs hys h2
        refine ⟨x :: c', (mem_cart_cons _ _ _).2 ⟨_, _, rfl, ?_, h3⟩, Or.inr ⟨rfl, h4⟩, ?_⟩
        · rw [mem_axisRange]
          cases p <;> simp <;> omega
        · rw [wrap, h5, Int.emod_eq_of_lt hx.1 hx.2]

theorem has_neighbour (ext : List Nat) (pbc : List Bool) (nb : Nat) (hlen : ext.length = pbc.length)
    (hext : Extended ext pbc) (u : List Int) (hu : u ∈ inner ext nb) :
    ∃ c ∈ shell ext pbc nb, UnitStep u c ∨ UnitStep c u := by
  induction ext generalizing pbc u with
  | nil => obtain ⟨q, hq, _⟩ := hext; simp at hq
  | cons e es ih =>
    cases pbc with
    | nil => simp at hlen
    | cons p ps =>
      have hl : es.length = ps.length := by simpa using hlen
      obtain ⟨x, xs, rfl, hx, hxs⟩ := (mem_cart_cons _ _ _).1 hu
      rw [mem_upto] at hx
      have hs := (inner_subset es ps nb hl xs).1 hxs
      obtain ⟨q, hq, hq'⟩ := hext
      rw [List.zip_cons_cons, List.mem_cons] at hq
      rcases hq with rfl | hq
      · by_cases hp : p = true
        · subst hp
          refine ⟨(x + 1) :: xs, (mem_cart_cons _ _ _).2 ⟨_, _, rfl, ?_, hs.1⟩, Or.inl (Or.inl ⟨rfl, rfl⟩)⟩
          rw [mem_axisRange]; simp only [if_true]; omega
        · have he : 2 ≤ e := by rcases hq' with h | h; exacts [absurd h hp, h]
          rw [Bool.not_eq_true] at hp
          subst hp
          by_cases hx0 : x = 0
          · refine ⟨(x + 1) :: xs, (mem_cart_cons _ _ _).2 ⟨_, _, rfl, ?_, hs.1⟩, Or.inl (Or.inl ⟨rfl, rfl⟩)⟩
            rw [mem_axisRange]; simp only [Bool.false_eq_true, if_false]; omega
          · refine ⟨(x - 1) :: xs, (mem_cart_cons _ _ _).2 ⟨_, _, rfl, ?_, hs.1⟩, Or.inr (Or.inl ⟨by omega, rfl⟩)⟩
            rw [mem_axisRange]; simp only [Bool.false_eq_true, if_false]; omega
      · obtain ⟨c, h1, h2⟩ := ih ps hl ⟨q, hq, hq'⟩ xs hxs
        refine ⟨x :: c, (mem_cart_cons _ _ _).2 ⟨_, _, rfl, ?_, h1⟩, ?_⟩
        · rw [mem_axisRange]
          cases p <;> simp <;> omega
        · rcases h2 with h2 | h2
          · exact Or.inl (Or.inr ⟨rfl, h2⟩)
          · exact Or.inr (Or.inr ⟨rfl, h2⟩)

/-! ## C35 -/

/-- `Grid(extent, pbc)`, for positive extents with at least one direction extended or periodic: the sites are all
    coordinates in row-major order, two different sites are connected exactly when they differ by one unit along exactly
    one direction, modulo the extent on periodic axes; no loop occurs and each edge is listed once. -/
theorem C35_grid_edges (ext : List Nat) (pbc : List Bool) (hlen : ext.length = pbc.length)
    (hpos : ∀ e ∈ ext, 0 < e) (hext : Extended ext pbc) :
    ∃ L, mkGrid ext pbc = .ok L ∧ L.basisCoords = cart (ext.map upto ++ [[0]])
      ∧ (∀ (a b : Nat) (u v : List Int), L.basisCoords[a]? = some u → L.basisCoords[b]? = some v →
        (((a, b) ∈ L.edges ∨ (b, a) ∈ L.edges) ↔ u ≠ v ∧ (WrapStep ext pbc u v ∨ WrapStep ext pbc v u)))
      ∧ (∀ e ∈ L.edges, e.1 ≠ e.2 ∧ e.1 < L.nNodes ∧ e.2 < L.nNodes)
      ∧ L.edges.Pairwise (fun e e' => e ≠ e' ∧ e ≠ (e'.2, e'.1)) := by
  have hslen : ∀ c ∈ shell ext pbc 1, c.length = (shellRanges ext pbc 1).length := fun c hc => cart_length _ c hc
  obtain ⟨L, h1, h2, h3, h4, h5⟩ := mkLattice_spec gridNear gridNear_comm gridNear_self ext pbc 1 hlen hpos (by omega) (by
    intro u hu
    obtain ⟨c, hc, h⟩ := has_neighbour ext pbc 1 hlen hext u hu
    refine ⟨c, hc, (closest_grid _ _ _).2 ((sqDist_eq_one u c ?_).2 h)⟩
    rw [hslen c hc, hslen u ((inner_subset ext pbc 1 hlen u).1 hu).1])
  refine ⟨L, h1, h2, ?_, fun e he => ⟨h3.1 e he, (h4 e he).1, (h4 e he).2⟩, h3.2⟩
  intro a b u v hu hv
  have hum : u ∈ inner ext 1 := by rw [← h2]; exact List.mem_of_getElem? hu
  have hvm : v ∈ inner ext 1 := by rw [← h2]; exact List.mem_of_getElem? hv
  have := h5 a b u v hu hv
  unfold has at this
  rw [this]
  refine and_congr_right fun _ => ?_
  unfold TrueNeighbour
  constructor
  · rintro ⟨c, hc, c', hc', _, hcl, rfl, rfl⟩
    have := (sqDist_eq_one c c' (by rw [hslen c hc, hslen c' hc'])).1 ((closest_grid _ _ _).1 hcl)
    rcases this with h | h
    · exact Or.inl (wrap_unit ext pbc 1 hlen hpos rfl c c' hc hc' h)
    · exact Or.inr (wrap_unit ext pbc 1 hlen hpos rfl c' c hc' hc h)
  · have hus := (inner_subset ext pbc 1 hlen u).1 hum
    have hvs := (inner_subset ext pbc 1 hlen v).1 hvm
    rintro (h | h)
    · obtain ⟨c', g1, g2, g3⟩ := unwrap_step ext pbc 1 hlen u v hum hvm h
      exact ⟨u, hus.1, c', g1, Or.inl hus.2,
        (closest_grid _ _ _).2 ((sqDist_eq_one u c' (by rw [hslen u hus.1, hslen c' g1])).2 (Or.inl g2)),
        wrap_inside ext u hus.2, g3⟩
    · obtain ⟨c', g1, g2, g3⟩ := unwrap_step ext pbc 1 hlen v u hvm hum h
      exact ⟨c', g1, v, hvs.1, Or.inr hvs.2,
        (closest_grid _ _ _).2 ((sqDist_eq_one c' v (by rw [hslen v hvs.1, hslen c' g1])).2 (Or.inr g2)),
        g3, wrap_inside ext v hvs.2⟩

/-- a periodic square of side 3 has 18 edges; the open one 12. -/
example : (match mkGrid [3, 3] [true, true] with | .ok L => L.edges.length | .error _ => 0) = 18
    ∧ (match mkGrid [3, 3] [false, false] with | .ok L => L.edges.length | .error _ => 0) = 12 := by decide +kernel
example : Extended [3, 1] [false, false] ∧ WrapStep [3, 1] [true, false] [2, 0, 0] [0, 0, 0] := by
  refine ⟨⟨(3, false), by simp, Or.inr (by simp)⟩, ?_⟩
  simp [WrapStep]

/-- Grids that are a single point are rejected: the constructor fails on `Grid([1], pbc=False)`. -/
theorem C115_single_site_refuted :
    ¬ ∀ ext pbc, ext.length = pbc.length → (∀ e ∈ ext, 0 < e) → ∃ L, mkGrid ext pbc = .ok L := by
  intro h
  obtain ⟨L, hL⟩ := h [1] [false] rfl (by simp)
  have hw : (match mkGrid [1] [false] with | .ok _ => false | .error _ => true) = true := by decide +kernel
  rw [hL] at hw
  exact absurd hw Bool.false_ne_true

/-! ## C34 -/

theorem flatMap_getElem {α β : Type} (f : α → List β) (m : Nat) (r : List α) (hf : ∀ x ∈ r, (f x).length = m) (i j : Nat)
    (x : α) (hx : r[i]? = some x) (hj : j < m) : (r.flatMap f)[i * m + j]? = (f x)[j]? := by
  induction r generalizing i with
  | nil => simp at hx
  | cons y r ih =>
    rw [List.flatMap_cons]
    have hy := hf y (by simp)
    cases i with
    | zero =>
      simp only [List.getElem?_cons_zero, Option.some.injEq] at hx
      subst hx
      rw [Nat.zero_mul, Nat.zero_add, List.getElem?_append_left (by omega)]
    | succ i =>
      simp only [List.getElem?_cons_succ] at hx
      rw [List.getElem?_append_right (by rw [hy, Nat.succ_mul]; omega), hy, Nat.succ_mul,
        show i * m + m + j - m = i * m + j by omega]
      exact ih (fun x hx => hf x (List.mem_cons_of_mem _ hx)) i hx

theorem upto_length (n : Nat) : (upto n).length = n := by simp [upto]

theorem upto_get (n : Nat) (x : Int) (h : x ∈ upto n) : (upto n)[x.toNat]? = some x := by
  rw [mem_upto] at h
  rw [upto, List.getElem?_map, List.getElem?_range (by omega)]
  simp only [Option.map_some, Option.some.injEq]
  omega

theorem cart_upto_length (ds : List Nat) : (cart (ds.map upto)).length = ds.prod := by
  induction ds with
  | nil => rfl
  | cons d ds ih =>
    rw [List.map_cons, cart, List.length_flatMap]
    simp only [List.length_map, ih, List.map_const', List.sum_replicate, upto_length, List.prod_cons]
    exact nsmul_eq_mul _ _

theorem radix_spec (ds : List Nat) (c : List Int) (h : c ∈ cart (ds.map upto)) :
    0 ≤ radix ds c ∧ radix ds c < ((ds.prod : Nat) : Int) ∧ (cart (ds.map upto))[(radix ds c).toNat]? = some c := by
  induction ds generalizing c with
  | nil =>
    rw [List.map_nil, mem_cart_nil] at h
    subst h
    refine ⟨le_refl _, ?_, rfl⟩
    simp [radix]
  | cons d ds ih =>
    rw [List.map_cons] at h ⊢
    obtain ⟨x, xs, rfl, hx, hxs⟩ := (mem_cart_cons _ _ _).1 h
    obtain ⟨h1, h2, h3⟩ := ih xs hxs
    have hx' := (mem_upto d x).1 hx
    rw [radix, List.prod_cons]
    set P := ds.prod with hP
    have hm : 0 ≤ x * (P : Int) := mul_nonneg hx'.1 (by omega)
    have hm2 : (x + 1) * (P : Int) ≤ (d : Int) * (P : Int) :=
      mul_le_mul_of_nonneg_right (by omega) (by omega)
    have hm3 : (x + 1) * (P : Int) = x * (P : Int) + P := by ring
    refine ⟨by omega, by push_cast; omega, ?_⟩
    have hidx : (x * (P : Int) + radix ds xs).toNat = x.toNat * P + (radix ds xs).toNat := by
      zify
      rw [Int.toNat_of_nonneg (by omega), Int.toNat_of_nonneg hx'.1, Int.toNat_of_nonneg h1]
    rw [cart, hidx, flatMap_getElem (fun x => (cart (ds.map upto)).map fun c => x :: c) P (upto d)
      (fun y _ => by rw [List.length_map, cart_upto_length]) x.toNat _ x (upto_get d x hx) (by omega),
      List.getElem?_map, h3]
    rfl

/-- numbering of the sites of a lattice whose sites all have a neighbour at the smallest distance: coordinates
    `[r1, …, rD, q]` with `0 ≤ r_d < extent_d` and `0 ≤ q < n_basis` are numbered in row-major order, each number below
    the product occurs exactly once, `id_from_basis_coords` inverts `basis_coords` and raises InvalidSiteError for all
    other coordinates. -/
theorem C34_numbering (near : List Int → List Int → Option Int) (hsym : ∀ a b, near a b = near b a)
    (hirr : ∀ a, near a a = none) (ext : List Nat) (pbc : List Bool) (nb : Nat) (hlen : ext.length = pbc.length)
    (hpos : ∀ e ∈ ext, 0 < e) (hnb : 0 < nb)
    (hall : ∀ u ∈ inner ext nb, ∃ c ∈ shell ext pbc nb, Closest near (shell ext pbc nb) u c) :
    ∃ L, mkLattice ext pbc nb near = .ok L ∧ L.nNodes = ext.prod * nb ∧ L.basisCoords.Nodup
      ∧ (∀ c : List Int, c ∈ L.basisCoords ↔ List.Forall₂ (fun x (d : Nat) => 0 ≤ x ∧ x < (d : Int)) c (ext ++ [nb]))
      ∧ (∀ (i : Nat) c, L.basisCoords[i]? = some c ↔ c ∈ L.basisCoords ∧ (i : Int) = radix (ext ++ [nb]) c)
      ∧ (∀ (i : Nat) c, L.idFromBasisCoords c = .ok i ↔ L.basisCoords[i]? = some c)
      ∧ ∀ c, c ∉ L.basisCoords → L.idFromBasisCoords c = .error .keyError := by
  obtain ⟨L, h1, h2, _⟩ := mkLattice_spec near hsym hirr ext pbc nb hlen hpos hnb hall
  have hin : inner ext nb = cart ((ext ++ [nb]).map upto) := by rw [inner, List.map_append]; rfl
  have hnd : L.basisCoords.Nodup := by rw [h2]; exact inner_nodup ext nb
  refine ⟨L, h1, ?_, hnd, ?_, ?_, ?_, ?_⟩
  · rw [Lattice.nNodes, h2, hin, cart_upto_length, List.prod_append]
    simp
  · intro c
    rw [h2, hin]
    generalize ext ++ [nb] = ds
    induction ds generalizing c with
    | nil => rw [List.map_nil, mem_cart_nil]; cases c <;> simp
    | cons d ds ih =>
      rw [List.map_cons, mem_cart_cons]
      constructor
      · rintro ⟨x, xs, rfl, hx, hxs⟩
        exact List.Forall₂.cons ((mem_upto d x).1 hx) ((ih xs).1 hxs)
      · intro h
        cases h with
        | cons h3 h4 => exact ⟨_, _, rfl, (mem_upto d _).2 h3, (ih _).2 h4⟩
  · intro i c
    rw [h2, hin]
    constructor
    · intro h
      have hm := List.mem_of_getElem? h
      obtain ⟨g1, g2, g3⟩ := radix_spec _ c hm
      refine ⟨hm, ?_⟩
      rw [h2, hin] at hnd
      obtain ⟨k1, k2⟩ := List.getElem?_eq_some_iff.1 h
      obtain ⟨k3, k4⟩ := List.getElem?_eq_some_iff.1 g3
      have := (hnd.getElem_inj_iff).1 (k2.trans k4.symm)
      omega
    · rintro ⟨hm, hi⟩
      obtain ⟨g1, g2, g3⟩ := radix_spec _ c hm
      rw [← hi] at g3
      simpa using g3
  · intro i c
    unfold Lattice.idFromBasisCoords
    constructor
    · intro h
      split_ifs at h with hc
      simp only [Except.ok.injEq] at h
      subst h
      exact List.getElem?_idxOf hc
    · intro h
      rw [if_pos (List.mem_of_getElem? h)]
      obtain ⟨k1, k2⟩ := List.getElem?_eq_some_iff.1 h
      subst k2
      rw [List.Nodup.idxOf_getElem hnd]
  · intro c hc
    unfold Lattice.idFromBasisCoords
    rw [if_neg hc]

/-- the same for Grid, with the hypothesis in terms of its arguments. -/
theorem C34_grid (ext : List Nat) (pbc : List Bool) (hlen : ext.length = pbc.length)
    (hpos : ∀ e ∈ ext, 0 < e) (hext : Extended ext pbc) :
    ∃ L, mkGrid ext pbc = .ok L ∧ L.nNodes = ext.prod ∧ L.basisCoords.Nodup
      ∧ (∀ c : List Int, c ∈ L.basisCoords ↔ List.Forall₂ (fun x (d : Nat) => 0 ≤ x ∧ x < (d : Int)) c (ext ++ [1]))
      ∧ (∀ (i : Nat) c, L.basisCoords[i]? = some c ↔ c ∈ L.basisCoords ∧ (i : Int) = radix (ext ++ [1]) c)
      ∧ (∀ (i : Nat) c, L.idFromBasisCoords c = .ok i ↔ L.basisCoords[i]? = some c)
      ∧ ∀ c, c ∉ L.basisCoords → L.idFromBasisCoords c = .error .keyError := by
  have hslen : ∀ c ∈ shell ext pbc 1, c.length = (shellRanges ext pbc 1).length := fun c hc => cart_length _ c hc
  have := C34_numbering gridNear gridNear_comm gridNear_self ext pbc 1 hlen hpos (by omega) (by
    intro u hu
    obtain ⟨c, hc, h⟩ := has_neighbour ext pbc 1 hlen hext u hu
    refine ⟨c, hc, (closest_grid _ _ _).2 ((sqDist_eq_one u c ?_).2 h)⟩
    rw [hslen c hc, hslen u ((inner_subset ext pbc 1 hlen u).1 hu).1])
  rwa [Nat.mul_one] at this

example : radix [3, 4, 1] [2, 1, 0] = 9 := by decide
example : (match mkGrid [3, 4] [true, false] with | .ok L => L.idFromBasisCoords [2, 1, 0] | .error e => .error e)
    = .ok 9 := by decide +kernel
example : (match mkGrid [3, 4] [true, false] with | .ok L => L.idFromBasisCoords [3, 1, 0] | .error e => .error e)
    = .error .keyError := by decide +kernel

/-! ### Lookup by position -/

section
variable {K : Type} [Field K] [LinearOrder K] [IsStrictOrderedRing K] [FloorRing K]

theorem rint_add_even (x : K) (n : Int) (hn : n % 2 = 0) : rint (x + (n : K)) = rint x + n := by
  unfold rint
  rw [Int.floor_add_intCast]
  have h1 : x + (n : K) - ((⌊x⌋ + n : Int) : K) = x - (⌊x⌋ : K) := by push_cast; ring
  rw [h1]
  have h2 : (⌊x⌋ + n) % 2 = ⌊x⌋ % 2 := by omega
  rw [h2]
  split_ifs <;> omega

/-- the bin on a periodic axis does not change when the box vector is added any number of times. -/
theorem comparablePeriodic_shift (x : K) (n : Int) : comparablePeriodic true (x + (n : K)) = comparablePeriodic true x := by
  unfold comparablePeriodic comparable
  simp only [if_true]
  have h1 : (x + (n : K)) * 3326400 + 5413 / 15629 = (x * 3326400 + 5413 / 15629) + ((n * 3326400 : Int) : K) := by
    push_cast; ring
  rw [h1, rint_add_even _ _ (by omega), Int.add_mul_emod_self_right]

/-- shift of a fractional position by box vectors along the periodic axes only. -/
def shiftBy : List Bool → List Int → List K → List K
  | p :: ps, n :: ns, x :: xs => (if p then x + (n : K) else x) :: shiftBy ps ns xs
  | _, _, xs => xs

theorem intPos_shift (pbc : List Bool) (ns : List Int) (f : List K) :
    intPos pbc (shiftBy pbc ns f) = intPos pbc f := by
  induction pbc generalizing ns f with
  | nil => cases ns <;> cases f <;> rfl
  | cons p ps ih =>
    cases ns with
    | nil => cases f <;> rfl
    | cons n ns =>
      cases f with
      | nil => rfl
      | cons x xs =>
        rw [shiftBy, intPos, intPos, ih]
        cases p
        · rfl
        · simp only [if_true]
          rw [comparablePeriodic_shift]

theorem lookup_last (keys : List (List Int)) (hnd : keys.Nodup) (i : Nat) (hi : i < keys.length) :
    keys.length - 1 - keys.reverse.idxOf keys[i] = i := by
  have h : keys.reverse[keys.length - 1 - i]'(by rw [List.length_reverse]; omega) = keys[i] := by
    rw [List.getElem_reverse]
    congr 1
    omega
  rw [← h, List.Nodup.idxOf_getElem (List.nodup_reverse.2 hnd)]
  omega

/-- `id_from_position`: the position of site `i`, moved by any box vectors along the periodic axes, is found to be site
    `i`, as long as the keys of the sites differ. -/
theorem C34_position (L : Lattice) (offsets : Nat → List K) (ext : List Nat) (pbc : List Bool)
    (hkeys : (L.posKeys offsets ext pbc).Nodup) (i : Nat) (c : List Int) (hc : L.basisCoords[i]? = some c)
    (ns : List Int) :
    idFromFrac pbc (L.posKeys offsets ext pbc) (shiftBy pbc ns (fracPos offsets ext c)) = .ok i := by
  unfold idFromFrac
  rw [intPos_shift]
  have hi : i < (L.posKeys offsets ext pbc).length := by
    rw [Lattice.posKeys, List.length_map]
    exact (List.getElem?_eq_some_iff.1 hc).1
  have hk : intPos pbc (fracPos offsets ext c) = (L.posKeys offsets ext pbc)[i] := by
    obtain ⟨_, h⟩ := List.getElem?_eq_some_iff.1 hc
    simp only [Lattice.posKeys, List.getElem_map, h]
  simp only
  rw [hk, if_pos (List.getElem_mem hi), lookup_last _ hkeys i hi]

/-- an answer of `id_from_position` is a site with the same key; positions with no site in their bin are rejected. -/
theorem C34_position_sound (L : Lattice) (offsets : Nat → List K) (ext : List Nat) (pbc : List Bool) (f : List K) :
    (∀ i, idFromFrac pbc (L.posKeys offsets ext pbc) f = .ok i →
      ∃ c, L.basisCoords[i]? = some c ∧ intPos pbc (fracPos offsets ext c) = intPos pbc f)
    ∧ ((∀ c ∈ L.basisCoords, intPos pbc (fracPos offsets ext c) ≠ intPos pbc f) →
      idFromFrac pbc (L.posKeys offsets ext pbc) f = .error .keyError) := by
  unfold idFromFrac
  constructor
  · intro i h
    simp only at h
    split_ifs at h with hm
    simp only [Except.ok.injEq] at h
    set keys := L.posKeys offsets ext pbc with hk
    have hlt : keys.reverse.idxOf (intPos pbc f) < keys.length := by
      have := List.idxOf_lt_length_iff.2 (List.mem_reverse.2 hm)
      simpa using this
    have hget := List.getElem?_idxOf (List.mem_reverse.2 hm)
    rw [List.getElem?_reverse hlt, h, hk, Lattice.posKeys, List.getElem?_map, Option.map_eq_some_iff] at hget
    exact hget
  · intro h
    simp only
    rw [if_neg]
    intro hm
    obtain ⟨c, hc, h'⟩ := List.mem_map.1 hm
    exact h c hc h'

theorem rint_bounds (x : K) : (rint x : K) ≤ x + 1 / 2 ∧ x - 1 / 2 ≤ (rint x : K) := by
  unfold rint
  have h1 := Int.floor_le x
  have h2 := Int.lt_floor_add_one x
  split_ifs with h3 h4 h5
  · constructor <;> linarith
  · push_cast; constructor <;> linarith
  · constructor <;> linarith
  · push_cast
    constructor <;> linarith

/-- cells of one axis of a single-atom lattice fall into different bins below 3326400 cells per axis. -/
theorem bin_inj (e : Nat) (p : Bool) (o : K) (he : e < 3326400) (x y : Int) (hx : 0 ≤ x ∧ x < e) (hy : 0 ≤ y ∧ y < e)
    (h : comparablePeriodic p (((x : K) + o) / (e : K)) = comparablePeriodic p (((y : K) + o) / (e : K))) : x = y := by
  have he0 : (0 : K) < e := by
    have : 0 < e := by omega
    exact_mod_cast this
  have heK : (e : K) < 3326400 := by exact_mod_cast he
  -- both keys as integers
  set bx := comparable (((x : K) + o) / (e : K)) with hbx
  set bY := comparable (((y : K) + o) / (e : K)) with hby
  obtain ⟨b1, b2⟩ := rint_bounds (((x : K) + o) / (e : K) * 3326400 + 5413 / 15629)
  obtain ⟨b3, b4⟩ := rint_bounds (((y : K) + o) / (e : K) * 3326400 + 5413 / 15629)
  have hcx : (bx : K) = (rint (((x : K) + o) / (e : K) * 3326400 + 5413 / 15629) : K) := by rw [hbx]; rfl
  have hcy : (bY : K) = (rint (((y : K) + o) / (e : K) * 3326400 + 5413 / 15629) : K) := by rw [hby]; rfl
  rw [← hcx] at b1 b2
  rw [← hcy] at b3 b4
  have hmod : ∃ k : Int, bx - bY = k * 3326400 := by
    cases p with
    | false =>
      refine ⟨0, ?_⟩
      have h' : bx = bY := h
      omega
    | true =>
      have h' : bx % 3326400 = bY % 3326400 := h
      exact ⟨(bx - bY) / 3326400, by omega⟩
  obtain ⟨k, hk⟩ := hmod
  have hkK : (bx : K) - (bY : K) = (k : K) * 3326400 := by exact_mod_cast hk
  -- |B (x-y)/e - B k| ≤ 1 hence |(x - y) - k e| ≤ e / B < 1
  set D : K := ((x : K) - (y : K)) / (e : K) with hD
  have hDx : ((x : K) + o) / (e : K) = ((y : K) + o) / (e : K) + D := by rw [hD]; field_simp; ring
  rw [hDx] at b1 b2
  have c1 : (k : K) * 3326400 ≤ D * 3326400 + 1 := by nlinarith
  have c2 : D * 3326400 - 1 ≤ (k : K) * 3326400 := by nlinarith
  have hDe : D * (e : K) = (x : K) - (y : K) := by rw [hD]; field_simp
  have d1 : ((x - y - k * e : Int) : K) < 1 := by
    push_cast
    have : (D - (k : K)) * 3326400 ≤ 1 := by linarith
    have h3 : (D - (k : K)) * (e : K) < 1 := by
      by_cases hs : D - (k : K) ≤ 0
      · have := mul_nonpos_of_nonpos_of_nonneg hs he0.le
        linarith
      · push Not at hs
        have := mul_lt_mul_of_pos_left heK hs
        linarith
    linarith
  have d2 : (-1 : K) < ((x - y - k * e : Int) : K) := by
    push_cast
    have : -1 ≤ (D - (k : K)) * 3326400 := by linarith
    have h3 : -1 < (D - (k : K)) * (e : K) := by
      by_cases hs : 0 ≤ D - (k : K)
      · have := mul_nonneg hs he0.le
        linarith
      · push Not at hs
        have := mul_lt_mul_of_neg_left heK hs
        linarith
    linarith
  have e1 : x - y - k * e < 1 := by exact_mod_cast d1
  have e2 : -1 < x - y - k * e := by
    have : ((-1 : Int) : K) < ((x - y - k * e : Int) : K) := by push_cast at d2 ⊢; exact d2
    exact_mod_cast this
  have e3 : x - y = k * e := by omega
  have hk1 : k < 1 := by
    by_contra hc
    push Not at hc
    have : (e : Int) ≤ k * e := by nlinarith
    omega
  have hk2 : -1 < k := by
    by_contra hc
    push Not at hc
    have : k * (e : Int) ≤ -e := by nlinarith
    omega
  have : k = 0 := by omega
  subst this
  omega

theorem go_inj (es : List Nat) (ps : List Bool) (os : List K) (a b : List Int) (hl : es.length = ps.length)
    (ho : os.length = es.length) (he : ∀ e ∈ es, e < 3326400)
    (ha : a ∈ cart (es.map upto ++ [upto 1])) (hb : b ∈ cart (es.map upto ++ [upto 1]))
    (h : intPos ps (fracPos.go es a os) = intPos ps (fracPos.go es b os)) : a = b := by
  induction es generalizing ps os a b with
  | nil =>
    obtain ⟨x, xs, rfl, hx, hxs⟩ := (mem_cart_cons _ _ _).1 ha
    obtain ⟨y, ys, rfl, hy, hys⟩ := (mem_cart_cons _ _ _).1 hb
    rw [mem_cart_nil] at hxs hys
    subst hxs hys
    have h1 := (mem_upto 1 x).1 hx
    have h2 := (mem_upto 1 y).1 hy
    push_cast at h1 h2
    congr 1
    omega
  | cons e es ih =>
    cases ps with
    | nil => simp at hl
    | cons p ps =>
      cases os with
      | nil => simp at ho
      | cons o os =>
        obtain ⟨x, xs, rfl, hx, hxs⟩ := (mem_cart_cons _ _ _).1 ha
        obtain ⟨y, ys, rfl, hy, hys⟩ := (mem_cart_cons _ _ _).1 hb
        rw [fracPos.go, fracPos.go, intPos, intPos, List.cons.injEq] at h
        have h1 := bin_inj e p o (he e (by simp)) x y ((mem_upto e x).1 hx) ((mem_upto e y).1 hy) h.1
        have h2 := ih ps os xs ys (by simpa using hl) (by simpa using ho) (fun e' he' => he e' (List.mem_cons_of_mem _ he'))
          hxs hys h.2
        rw [h1, h2]

theorem getLast_inner_one (ext : List Nat) (c : List Int) (hc : c ∈ inner ext 1) : c.getLast?.getD 0 = 0 := by
  rw [inner] at hc
  induction ext generalizing c with
  | nil =>
    obtain ⟨x, xs, rfl, hx, hxs⟩ := (mem_cart_cons _ _ _).1 hc
    rw [mem_cart_nil] at hxs
    subst hxs
    have h1 := (mem_upto 1 x).1 hx
    push_cast at h1
    have : x = 0 := by omega
    subst this
    rfl
  | cons e es ih =>
    obtain ⟨x, xs, rfl, hx, hxs⟩ := (mem_cart_cons _ _ _).1 hc
    have h := ih xs hxs
    have hne : xs ≠ [] := by
      rintro rfl
      have := cart_length _ _ hxs
      simp at this
    cases xs with
    | nil => exact absurd rfl hne
    | cons y ys => rw [List.getLast?_cons_cons]; exact h

/-- on a lattice with one atom per cell, with any offset of the atom, and fewer than 3326400 cells per axis, all keys
    differ: `id_from_position` inverts `positions`, also for positions moved by box vectors. -/
theorem C34_position_single_atom (L : Lattice) (offset : List K) (ext : List Nat) (pbc : List Bool)
    (hL : L.basisCoords = inner ext 1) (hlen : ext.length = pbc.length) (hoff : offset.length = ext.length)
    (he : ∀ e ∈ ext, e < 3326400) (i : Nat) (c : List Int) (hc : L.basisCoords[i]? = some c) (ns : List Int) :
    idFromFrac pbc (L.posKeys (fun _ => offset) ext pbc) (shiftBy pbc ns (fracPos (fun _ => offset) ext c)) = .ok i := by
  apply C34_position _ _ _ _ _ i c hc
  rw [Lattice.posKeys, hL]
  refine List.Nodup.map_on ?_ (inner_nodup ext 1)
  intro a ha b hb hab
  exact go_inj ext pbc offset a b hlen hoff he ha hb hab

end

example : comparable (3 / 10 : Rat) = 997920 ∧ comparablePeriodic true (13 / 10 : Rat) = 997920
    ∧ comparablePeriodic false (13 / 10 : Rat) = 4324320 := by
  refine ⟨by decide +kernel, by decide +kernel, by decide +kernel⟩

/-! ## C37 -/

/-- the number of nodes is the number of cells times the number of atoms whenever each site has a neighbour at the smallest
    distance; without that sites get lost (see below). -/
theorem C37_all_sites_partial (near : List Int → List Int → Option Int) (hsym : ∀ a b, near a b = near b a)
    (hirr : ∀ a, near a a = none) (ext : List Nat) (pbc : List Bool) (nb : Nat) (hlen : ext.length = pbc.length)
    (hpos : ∀ e ∈ ext, 0 < e) (hnb : 0 < nb)
    (hall : ∀ u ∈ inner ext nb, ∃ c ∈ shell ext pbc nb, Closest near (shell ext pbc nb) u c) :
    ∃ L, mkLattice ext pbc nb near = .ok L ∧ L.nNodes = ext.prod * nb := by
  obtain ⟨L, h1, h2, _⟩ := C34_numbering near hsym hirr ext pbc nb hlen hpos hnb hall
  exact ⟨L, h1, h2⟩

/-- Grids have all their sites, apart from the single open point. -/
theorem C37_grid (ext : List Nat) (pbc : List Bool) (hlen : ext.length = pbc.length)
    (hpos : ∀ e ∈ ext, 0 < e) (hext : Extended ext pbc) :
    ∃ L, mkGrid ext pbc = .ok L ∧ L.nNodes = ext.prod := by
  obtain ⟨L, h1, h2, _⟩ := C34_grid ext pbc hlen hpos hext
  exact ⟨L, h1, h2⟩

/-- bins of the squared distances of a chain with cell length 1 and atoms at 0, 1/10 and 1/2, in units of 1/100; all distances up to
    the cutoff count. -/
def chainNear (a b : List Int) : Option Int :=
  match a, b with
  | [x, q], [y, r] =>
    let pos (x q : Int) : Int := 10 * x + (if q = 0 then 0 else if q = 1 then 1 else 5)
    let d := (pos x q - pos y r) * (pos x q - pos y r)
    if d = 0 then none else if d ≤ 100 then some d else none
  | _, _ => none

/-- a chain with atoms at 0, 0.1 and 0.5 of the cell loses every third atom: only two of three sites per cell are nodes. -/
theorem C37_lost_sites_refuted :
    ¬ ∀ (near : List Int → List Int → Option Int) (ext : List Nat) (pbc : List Bool) (nb : Nat),
      (∀ a b, near a b = near b a) → (∀ a, near a a = none) → ext.length = pbc.length → (∀ e ∈ ext, 0 < e) → 0 < nb →
      ∀ L, mkLattice ext pbc nb near = .ok L → L.nNodes = ext.prod * nb := by
  intro h
  have hsym : ∀ a b, chainNear a b = chainNear b a := by
    intro a b
    unfold chainNear
    rcases a with _ | ⟨x, _ | ⟨q, _ | ⟨z, a⟩⟩⟩ <;> rcases b with _ | ⟨y, _ | ⟨r, _ | ⟨w, b⟩⟩⟩ <;> try rfl
    simp only
    have : ∀ u v : Int, (u - v) * (u - v) = (v - u) * (v - u) := by intro u v; ring
    rw [this]
  have hirr : ∀ a, chainNear a a = none := by
    intro a
    unfold chainNear
    rcases a with _ | ⟨x, _ | ⟨q, _ | ⟨z, a⟩⟩⟩ <;> try rfl
    simp
  have h2 := h chainNear [4] [true] 3 hsym hirr rfl (by simp) (by omega)
  have hw : (match mkLattice [4] [true] 3 chainNear with
    | .ok L => decide (L.nNodes = 8)
    | .error _ => false) = true := by decide +kernel
  rcases hm : mkLattice [4] [true] 3 chainNear with e | L
  · rw [hm] at hw
    exact absurd hw Bool.false_ne_true
  · rw [hm] at hw
    have h3 := h2 L hm
    have h4 := of_decide_eq_true hw
    rw [h4] at h3
    simp at h3

end Verif.Lat
