import Verif.Props.LatticeGraph
import Mathlib.Logic.Relation

/-! C259, continued: the predefined lattices are connected. -/

namespace Verif.Lat
open Verif.CommonLat
open Verif.Grf (Graph HasEdge EdgesIn Walk)

noncomputable section

/-- sites of the lattice that are moved into each other by one of the steps. -/
def OneStep (L : Lattice) (S : Int → Int → List (List Int)) (u v : List Int) : Prop :=
  u ∈ L.basisCoords ∧ v ∈ L.basisCoords ∧ u ≠ v ∧ ∃ δ ∈ S (lab u) (lab v), Moved u δ v

theorem site_of_mem {d : Nat} {geo : Geometry d} (ext : List Nat) (pbc : List Bool) (hd : ext.length = d) (L : Lattice) {d0 : ℝ}
    (h : NearestGraph geo ext pbc L d0) (u : List Int) (hu : u ∈ L.basisCoords) : IsSite d geo.offsets.length u := by
  have hm := (h.sites u).1 hu
  have hl := hm.length_eq
  rw [List.length_append, hd] at hl
  obtain ⟨l, q, rfl⟩ : ∃ l q, u = l ++ [q] := by
    have : u ≠ [] := by rintro rfl; simp at hl
    exact ⟨_, _, (List.dropLast_append_getLast this).symm⟩
  have hl' : l.length = ext.length := by simp at hl; omega
  have := (List.forall₂_iff_get.1 hm).2 l.length (by simp) (by simp [hl'])
  refine ⟨by simpa using hl, ?_⟩
  rw [lab_append]
  simpa [hl'] using this

/-- a lattice in which every other site leads by nearest neighbours to one that is closer to a first one is connected. -/
theorem nearest_connected {d : Nat} {geo : Geometry d} {N k0 : Nat} {S : Int → Int → List (List Int)} (F : Form geo N k0 S)
    (ext : List Nat) (pbc : List Bool) (hd : ext.length = d) (hp : pbc.length = d)
    (L : Lattice) (h : NearestGraph geo ext pbc L (Real.sqrt ((k0 : ℝ) / N))) (o : List Int) (ho : o ∈ L.basisCoords) (μ : List Int → Nat)
    (down : ∀ u ∈ L.basisCoords, u ≠ o → ∃ v, μ v < μ u ∧ Relation.TransGen (OneStep L S) u v) :
    ∃ g, L.graph = .ok g ∧ g.n = geo.offsets.length * ext.prod ∧ g.isConnected = true := by
  obtain ⟨g, hg, hgn, hE, hiff⟩ := graph_spec L h.ends
  refine ⟨g, hg, by rw [hgn, h.nodes, Nat.mul_comm], ?_⟩
  have hlt : ∀ {i : Nat} {x : List Int}, L.basisCoords[i]? = some x → i < g.n := by
    intro i x hx
    rw [hgn, Lattice.nNodes]
    exact (List.getElem?_eq_some_iff.1 hx).1
  have hget : ∀ a, a < g.n → ∃ u, L.basisCoords[a]? = some u := by
    intro a ha
    rw [hgn, Lattice.nNodes] at ha
    exact ⟨_, List.getElem?_eq_getElem ha⟩
  have huniq : ∀ {i j : Nat} {x : List Int}, L.basisCoords[i]? = some x → L.basisCoords[j]? = some x → i = j := by
    intro i j x hi hj
    obtain ⟨p1, p2⟩ := List.getElem?_eq_some_iff.1 hi
    obtain ⟨p3, p4⟩ := List.getElem?_eq_some_iff.1 hj
    exact (h.nodup.getElem_inj_iff).1 (p2.trans p4.symm)
  have one : ∀ {i j : Nat} {x y : List Int}, L.basisCoords[i]? = some x → L.basisCoords[j]? = some y → OneStep L S x y → ∃ c, HasEdge g i j c := by
    intro i j x y hx hy hs
    have sx := site_of_mem ext pbc hd L h x hs.1
    have sy := site_of_mem ext pbc hd L h y hs.2.1
    refine (hiff i j).2 ((h.edges i j x y hx hy).2 ⟨hs.2.2.1, y, image_refl ext pbc y (by omega) (by rw [hd]; exact sy.1), ?_⟩)
    exact (F.dist_iff x y sx sy).2 ((F.steps x y sx sy).2 hs.2.2.2)
  have many : ∀ {x y : List Int}, Relation.TransGen (OneStep L S) x y → ∀ i : Nat, L.basisCoords[i]? = some x →
      ∃ j : Nat, L.basisCoords[j]? = some y ∧ ∃ k, Walk g i k j := by
    intro x y hxy
    induction hxy with
    | single hs =>
      intro i hi
      obtain ⟨j, hj⟩ := List.mem_iff_getElem?.1 hs.2.1
      exact ⟨j, hj, _, .step .start (hlt hj) (one hi hj hs)⟩
    | tail _ hs ih =>
      intro i hi
      obtain ⟨j, hj, k, hk⟩ := ih i hi
      obtain ⟨l, hl⟩ := List.mem_iff_getElem?.1 hs.2.1
      exact ⟨l, hl, _, .step hk (hlt hl) (one hj hl hs)⟩
  obtain ⟨z, hz⟩ := List.mem_iff_getElem?.1 ho
  have home : ∀ (m : Nat) (i : Nat) (x : List Int), L.basisCoords[i]? = some x → μ x ≤ m → ∃ k, Walk g i k z := by
    intro m
    induction m with
    | zero =>
      intro i x hi hm
      by_cases hx : x = o
      · subst hx
        rw [huniq hi hz]
        exact ⟨0, .start⟩
      · obtain ⟨v, hv, -⟩ := down x (List.mem_of_getElem? hi) hx
        omega
    | succ m ih =>
      intro i x hi hm
      by_cases hx : x = o
      · subst hx
        rw [huniq hi hz]
        exact ⟨0, .start⟩
      · obtain ⟨v, hv, hs⟩ := down x (List.mem_of_getElem? hi) hx
        obtain ⟨j, hj, k, hk⟩ := many hs i hi
        obtain ⟨l, hl⟩ := ih j v hj (by omega)
        exact ⟨k + l, Grf.walk_trans hk hl⟩
  refine (Grf.C258_connected g (Nat.lt_of_le_of_lt (Nat.zero_le _) (hlt hz))).2 fun a b ha hb => ?_
  obtain ⟨u, hu⟩ := hget a ha
  obtain ⟨v, hv⟩ := hget b hb
  obtain ⟨k, hk⟩ := home _ a u hu le_rfl
  obtain ⟨l, hl⟩ := home _ b v hv le_rfl
  exact ⟨k + l, Grf.walk_trans hk (Grf.walk_symm hb hl)⟩

theorem mem_plane {geo : Geometry 2} {a b : Nat} {pbc : List Bool} {L : Lattice} {d0 : ℝ} (h : NearestGraph geo [a, b] pbc L d0) (u : List Int) :
    u ∈ L.basisCoords ↔ ∃ x y q : Int, u = [x, y, q] ∧ (0 ≤ x ∧ x < a) ∧ (0 ≤ y ∧ y < b) ∧ 0 ≤ q ∧ q < geo.offsets.length := by
  rw [h.sites]
  constructor
  · intro hf
    rcases hf with _ | ⟨h1, _ | ⟨h2, _ | ⟨h3, _ | _⟩⟩⟩
    exact ⟨_, _, _, rfl, h1, h2, h3⟩
  · rintro ⟨x, y, q, rfl, h1, h2, h3⟩
    exact .cons h1 (.cons h2 (.cons h3 .nil))

theorem mem_space {geo : Geometry 3} {a b c : Nat} {pbc : List Bool} {L : Lattice} {d0 : ℝ} (h : NearestGraph geo [a, b, c] pbc L d0) (u : List Int) :
    u ∈ L.basisCoords ↔ ∃ x y z q : Int, u = [x, y, z, q] ∧ (0 ≤ x ∧ x < a) ∧ (0 ≤ y ∧ y < b) ∧ (0 ≤ z ∧ z < c) ∧ 0 ≤ q ∧ q < geo.offsets.length := by
  rw [h.sites]
  constructor
  · intro hf
    rcases hf with _ | ⟨h1, _ | ⟨h2, _ | ⟨h3, _ | ⟨h4, _ | _⟩⟩⟩⟩
    exact ⟨_, _, _, _, rfl, h1, h2, h3, h4⟩
  · rintro ⟨x, y, z, q, rfl, h1, h2, h3, h4⟩
    exact .cons h1 (.cons h2 (.cons h3 (.cons h4 .nil)))

/-- C259: `Honeycomb(extent, pbc)` is connected. -/
theorem C259_honeycomb_connected (atol : ℝ) (hatol : 0 ≤ atol) (ext : List Nat) (pbc : List Bool) (hd : ext.length = 2) (hp : pbc.length = 2)
    (hpos : ∀ e ∈ ext, 0 < e) :
    ∃ L g, mkGeom honeycomb atol ext pbc = .ok L ∧ L.graph = .ok g ∧ g.n = 2 * ext.prod ∧ g.isConnected = true := by
  obtain ⟨L, h1, h2, -⟩ := C159_honeycomb atol hatol ext pbc hd hp hpos
  obtain ⟨a, b, rfl⟩ := List.length_eq_two.1 hd
  have ha := hpos a (by simp)
  have hb := hpos b (by simp)
  have hnb : honeycomb.offsets.length = 2 := by simp [honeycomb]
  have hs : Real.sqrt (((3 : Nat) : ℝ) / (9 : Nat)) = Real.sqrt (1 / 3) := by norm_num
  have hm := mem_plane h2
  rw [hnb] at hm
  obtain ⟨g, h3, h4, h5⟩ := nearest_connected honeycombForm [a, b] pbc hd hp L (by rw [hs]; exact h2) [0, 0, 0]
    ((hm _).2 ⟨0, 0, 0, rfl, by omega, by omega, by omega⟩) (fun u => (2 * (u.getD 0 0 + u.getD 1 0) + u.getD 2 0).toNat) (by
    intro u hu hne
    obtain ⟨x, y, q, rfl, hx, hy, hq⟩ := (hm u).1 hu
    rcases (by omega : q = 1 ∨ q = 0) with rfl | rfl
    · refine ⟨[x, y, 0], by simp; omega, .single ⟨hu, (hm _).2 ⟨x, y, 0, rfl, by omega, by omega, by omega⟩, by simp, [0, 0], by simp [lab, honeycombSteps], by simp [Moved]⟩⟩
    · by_cases h0 : 0 < x
      · refine ⟨[x - 1, y, 1], by simp; omega, .single ⟨hu, (hm _).2 ⟨x - 1, y, 1, rfl, by omega, by omega, by omega⟩, by simp, [-1, 0], by simp [lab, honeycombSteps], by simp [Moved]; omega⟩⟩
      · have : 0 < y := by
          by_contra hcon
          exact hne (by rw [show x = 0 by omega, show y = 0 by omega])
        refine ⟨[x, y - 1, 1], by simp; omega, .single ⟨hu, (hm _).2 ⟨x, y - 1, 1, rfl, by omega, by omega, by omega⟩, by simp, [0, -1], by simp [lab, honeycombSteps], by simp [Moved]; omega⟩⟩)
  exact ⟨L, g, h1, h3, by rw [h4, hnb], h5⟩

/-- C259: `Kagome(extent, pbc)` is connected. -/
theorem C259_kagome_connected (atol : ℝ) (hatol : 0 ≤ atol) (ext : List Nat) (pbc : List Bool) (hd : ext.length = 2) (hp : pbc.length = 2)
    (hpos : ∀ e ∈ ext, 0 < e) :
    ∃ L g, mkGeom kagome atol ext pbc = .ok L ∧ L.graph = .ok g ∧ g.n = 3 * ext.prod ∧ g.isConnected = true := by
  obtain ⟨L, h1, h2, -⟩ := C159_kagome atol hatol ext pbc hd hp hpos
  obtain ⟨a, b, rfl⟩ := List.length_eq_two.1 hd
  have ha := hpos a (by simp)
  have hb := hpos b (by simp)
  have hnb : kagome.offsets.length = 3 := by simp [kagome]
  have hs : Real.sqrt (((1 : Nat) : ℝ) / (4 : Nat)) = 1 / 2 := by
    rw [show (((1 : Nat) : ℝ) / (4 : Nat)) = (1 / 2) ^ 2 by norm_num, Real.sqrt_sq (by norm_num)]
  have hm := mem_plane h2
  rw [hnb] at hm
  obtain ⟨g, h3, h4, h5⟩ := nearest_connected kagomeForm [a, b] pbc hd hp L (by rw [hs]; exact h2) [0, 0, 0]
    ((hm _).2 ⟨0, 0, 0, rfl, by omega, by omega, by omega⟩) (fun u => (3 * (u.getD 0 0 + u.getD 1 0) + u.getD 2 0).toNat) (by
    intro u hu hne
    obtain ⟨x, y, q, rfl, hx, hy, hq⟩ := (hm u).1 hu
    rcases (by omega : q = 1 ∨ q = 2 ∨ q = 0) with rfl | rfl | rfl
    · refine ⟨[x, y, 0], by simp; omega, .single ⟨hu, (hm _).2 ⟨x, y, 0, rfl, by omega, by omega, by omega⟩, by simp, [0, 0], by simp [lab, kagomeSteps], by simp [Moved]⟩⟩
    · refine ⟨[x, y, 0], by simp; omega, .single ⟨hu, (hm _).2 ⟨x, y, 0, rfl, by omega, by omega, by omega⟩, by simp, [0, 0], by simp [lab, kagomeSteps], by simp [Moved]⟩⟩
    · by_cases h0 : 0 < y
      · refine ⟨[x, y - 1, 2], by simp; omega, .single ⟨hu, (hm _).2 ⟨x, y - 1, 2, rfl, by omega, by omega, by omega⟩, by simp, [0, -1], by simp [lab, kagomeSteps], by simp [Moved]; omega⟩⟩
      · have : 0 < x := by
          by_contra hcon
          exact hne (by rw [show x = 0 by omega, show y = 0 by omega])
        have hu1 : [x, y, 1] ∈ L.basisCoords := (hm _).2 ⟨x, y, 1, rfl, by omega, by omega, by omega⟩
        refine ⟨[x - 1, y, 2], by simp; omega, .tail (.single ⟨hu, hu1, by simp, [0, 0], by simp [lab, kagomeSteps], by simp [Moved]⟩)
          ⟨hu1, (hm _).2 ⟨x - 1, y, 2, rfl, by omega, by omega, by omega⟩, by simp, [-1, 0], by simp [lab, kagomeSteps], by simp [Moved]; omega⟩⟩)
  exact ⟨L, g, h1, h3, by rw [h4, hnb], h5⟩

/-- C259: `Triangular(extent, pbc)` is connected. -/
theorem C259_triangular_connected (atol : ℝ) (hatol : 0 ≤ atol) (ext : List Nat) (pbc : List Bool) (hd : ext.length = 2) (hp : pbc.length = 2)
    (hpos : ∀ e ∈ ext, 0 < e) (hext : Extended ext pbc) :
    ∃ L g, mkGeom triangular atol ext pbc = .ok L ∧ L.graph = .ok g ∧ g.n = ext.prod ∧ g.isConnected = true := by
  obtain ⟨L, h1, h2, -⟩ := C159_triangular atol hatol ext pbc hd hp hpos hext
  obtain ⟨a, b, rfl⟩ := List.length_eq_two.1 hd
  have ha := hpos a (by simp)
  have hb := hpos b (by simp)
  have hnb : triangular.offsets.length = 1 := by simp [triangular]
  have hm := mem_plane h2
  rw [hnb] at hm
  obtain ⟨g, h3, h4, h5⟩ := nearest_connected triangularForm [a, b] pbc hd hp L (by simpa using h2) [0, 0, 0]
    ((hm _).2 ⟨0, 0, 0, rfl, by omega, by omega, by omega⟩) (fun u => (u.getD 0 0 + u.getD 1 0).toNat) (by
    intro u hu hne
    obtain ⟨x, y, q, rfl, hx, hy, hq⟩ := (hm u).1 hu
    obtain rfl : q = 0 := by omega
    by_cases h0 : 0 < x
    · refine ⟨[x - 1, y, 0], by simp; omega, .single ⟨hu, (hm _).2 ⟨x - 1, y, 0, rfl, by omega, by omega, by omega⟩, by simp; omega, [-1, 0], by simp [triangularSteps], by simp [Moved]; omega⟩⟩
    · have : 0 < y := by
        by_contra hcon
        exact hne (by rw [show x = 0 by omega, show y = 0 by omega])
      refine ⟨[x, y - 1, 0], by simp; omega, .single ⟨hu, (hm _).2 ⟨x, y - 1, 0, rfl, by omega, by omega, by omega⟩, by simp; omega, [0, -1], by simp [triangularSteps], by simp [Moved]; omega⟩⟩)
  exact ⟨L, g, h1, h3, by rw [h4, hnb, Nat.one_mul], h5⟩

/-- C259: `Diamond(extent, pbc)` is connected. -/
theorem C259_diamond_connected (atol : ℝ) (hatol : 0 ≤ atol) (ext : List Nat) (pbc : List Bool) (hd : ext.length = 3) (hp : pbc.length = 3)
    (hpos : ∀ e ∈ ext, 0 < e) :
    ∃ L g, mkGeom diamond atol ext pbc = .ok L ∧ L.graph = .ok g ∧ g.n = 2 * ext.prod ∧ g.isConnected = true := by
  obtain ⟨L, h1, h2, -⟩ := C159_diamond atol hatol ext pbc hd hp hpos
  obtain ⟨a, b, c, rfl⟩ := List.length_eq_three.1 hd
  have ha := hpos a (by simp)
  have hb := hpos b (by simp)
  have hc := hpos c (by simp)
  have hnb : diamond.offsets.length = 2 := by simp [diamond]
  have hm := mem_space h2
  rw [hnb] at hm
  obtain ⟨g, h3, h4, h5⟩ := nearest_connected diamondForm [a, b, c] pbc hd hp L (by simpa using h2) [0, 0, 0, 0]
    ((hm _).2 ⟨0, 0, 0, 0, rfl, by omega, by omega, by omega, by omega⟩) (fun u => (2 * (u.getD 0 0 + u.getD 1 0 + u.getD 2 0) + u.getD 3 0).toNat) (by
    intro u hu hne
    obtain ⟨x, y, z, q, rfl, hx, hy, hz, hq⟩ := (hm u).1 hu
    rcases (by omega : q = 1 ∨ q = 0) with rfl | rfl
    · refine ⟨[x, y, z, 0], by simp; omega, .single ⟨hu, (hm _).2 ⟨x, y, z, 0, rfl, by omega, by omega, by omega, by omega⟩, by simp, [0, 0, 0], by simp [lab, diamondSteps], by simp [Moved]⟩⟩
    · by_cases h0 : 0 < x
      · refine ⟨[x - 1, y, z, 1], by simp; omega, .single ⟨hu, (hm _).2 ⟨x - 1, y, z, 1, rfl, by omega, by omega, by omega, by omega⟩, by simp, [-1, 0, 0], by simp [lab, diamondSteps], by simp [Moved]; omega⟩⟩
      · by_cases h0' : 0 < y
        · refine ⟨[x, y - 1, z, 1], by simp; omega, .single ⟨hu, (hm _).2 ⟨x, y - 1, z, 1, rfl, by omega, by omega, by omega, by omega⟩, by simp, [0, -1, 0], by simp [lab, diamondSteps], by simp [Moved]; omega⟩⟩
        · have : 0 < z := by
            by_contra hcon
            exact hne (by rw [show x = 0 by omega, show y = 0 by omega, show z = 0 by omega])
          refine ⟨[x, y, z - 1, 1], by simp; omega, .single ⟨hu, (hm _).2 ⟨x, y, z - 1, 1, rfl, by omega, by omega, by omega, by omega⟩, by simp, [0, 0, -1], by simp [lab, diamondSteps], by simp [Moved]; omega⟩⟩)
  exact ⟨L, g, h1, h3, by rw [h4, hnb], h5⟩

/-- C259: `Pyrochlore(extent, pbc)` is connected. -/
theorem C259_pyrochlore_connected (atol : ℝ) (hatol : 0 ≤ atol) (ext : List Nat) (pbc : List Bool) (hd : ext.length = 3) (hp : pbc.length = 3)
    (hpos : ∀ e ∈ ext, 0 < e) :
    ∃ L g, mkGeom pyrochlore atol ext pbc = .ok L ∧ L.graph = .ok g ∧ g.n = 4 * ext.prod ∧ g.isConnected = true := by
  obtain ⟨L, h1, h2, -⟩ := C159_pyrochlore atol hatol ext pbc hd hp hpos
  obtain ⟨a, b, c, rfl⟩ := List.length_eq_three.1 hd
  have ha := hpos a (by simp)
  have hb := hpos b (by simp)
  have hc := hpos c (by simp)
  have hnb : pyrochlore.offsets.length = 4 := by simp [pyrochlore]
  have hs : Real.sqrt (((8 : Nat) : ℝ) / (64 : Nat)) = Real.sqrt (1 / 8) := by norm_num
  have hm := mem_space h2
  rw [hnb] at hm
  obtain ⟨g, h3, h4, h5⟩ := nearest_connected pyroForm [a, b, c] pbc hd hp L (by rw [hs]; exact h2) [0, 0, 0, 0]
    ((hm _).2 ⟨0, 0, 0, 0, rfl, by omega, by omega, by omega, by omega⟩) (fun u => (4 * (u.getD 0 0 + u.getD 1 0 + u.getD 2 0) + u.getD 3 0).toNat) (by
    intro u hu hne
    obtain ⟨x, y, z, q, rfl, hx, hy, hz, hq⟩ := (hm u).1 hu
    by_cases hq0 : q = 0
    · subst hq0
      by_cases h0 : 0 < x
      · refine ⟨[x - 1, y, z, 1], by simp; omega, .single ⟨hu, (hm _).2 ⟨x - 1, y, z, 1, rfl, by omega, by omega, by omega, by omega⟩, by simp, [-1, 0, 0], by simp [lab, pyroSteps, pyroCell], by simp [Moved]; omega⟩⟩
      · by_cases h0' : 0 < y
        · refine ⟨[x, y - 1, z, 2], by simp; omega, .single ⟨hu, (hm _).2 ⟨x, y - 1, z, 2, rfl, by omega, by omega, by omega, by omega⟩, by simp, [0, -1, 0], by simp [lab, pyroSteps, pyroCell], by simp [Moved]; omega⟩⟩
        · have : 0 < z := by
            by_contra hcon
            exact hne (by rw [show x = 0 by omega, show y = 0 by omega, show z = 0 by omega])
          refine ⟨[x, y, z - 1, 3], by simp; omega, .single ⟨hu, (hm _).2 ⟨x, y, z - 1, 3, rfl, by omega, by omega, by omega, by omega⟩, by simp, [0, 0, -1], by simp [lab, pyroSteps, pyroCell], by simp [Moved]; omega⟩⟩
    · refine ⟨[x, y, z, 0], by simp; omega, .single ⟨hu, (hm _).2 ⟨x, y, z, 0, rfl, by omega, by omega, by omega, by omega⟩, by simp [hq0], [0, 0, 0], by simp [lab, pyroSteps, hq0], by simp [Moved]⟩⟩)
  exact ⟨L, g, h1, h3, by rw [h4, hnb], h5⟩

/-- lattices in space with one site to a cell whose basis vectors lead to nearest neighbours are connected. -/
theorem bravais_connected {geo : Geometry 3} {N k0 : Nat} {S : Int → Int → List (List Int)} (F : Form geo N k0 S) (hnb : geo.offsets.length = 1)
    (hS : [-1, 0, 0] ∈ S 0 0 ∧ [0, -1, 0] ∈ S 0 0 ∧ [0, 0, -1] ∈ S 0 0) (ext : List Nat) (pbc : List Bool) (hd : ext.length = 3) (hp : pbc.length = 3)
    (hpos : ∀ e ∈ ext, 0 < e) (L : Lattice) (h2 : NearestGraph geo ext pbc L (Real.sqrt ((k0 : ℝ) / N))) :
    ∃ g, L.graph = .ok g ∧ g.n = ext.prod ∧ g.isConnected = true := by
  obtain ⟨a, b, c, rfl⟩ := List.length_eq_three.1 hd
  have ha := hpos a (by simp)
  have hb := hpos b (by simp)
  have hc := hpos c (by simp)
  have hm := mem_space h2
  rw [hnb] at hm
  obtain ⟨g, h3, h4, h5⟩ := nearest_connected F [a, b, c] pbc hd hp L h2 [0, 0, 0, 0]
    ((hm _).2 ⟨0, 0, 0, 0, rfl, by omega, by omega, by omega, by omega⟩) (fun u => (u.getD 0 0 + u.getD 1 0 + u.getD 2 0).toNat) (by
    intro u hu hne
    obtain ⟨x, y, z, q, rfl, hx, hy, hz, hq⟩ := (hm u).1 hu
    obtain rfl : q = 0 := by omega
    by_cases h0 : 0 < x
    · refine ⟨[x - 1, y, z, 0], by simp; omega, .single ⟨hu, (hm _).2 ⟨x - 1, y, z, 0, rfl, by omega, by omega, by omega, by omega⟩, by simp; omega, [-1, 0, 0], hS.1, by simp [Moved]; omega⟩⟩
    · by_cases h0' : 0 < y
      · refine ⟨[x, y - 1, z, 0], by simp; omega, .single ⟨hu, (hm _).2 ⟨x, y - 1, z, 0, rfl, by omega, by omega, by omega, by omega⟩, by simp; omega, [0, -1, 0], hS.2.1, by simp [Moved]; omega⟩⟩
      · have : 0 < z := by
          by_contra hcon
          exact hne (by rw [show x = 0 by omega, show y = 0 by omega, show z = 0 by omega])
        refine ⟨[x, y, z - 1, 0], by simp; omega, .single ⟨hu, (hm _).2 ⟨x, y, z - 1, 0, rfl, by omega, by omega, by omega, by omega⟩, by simp; omega, [0, 0, -1], hS.2.2, by simp [Moved]; omega⟩⟩)
  exact ⟨g, h3, by rw [h4, hnb, Nat.one_mul], h5⟩

/-- C259: `FCC(extent, pbc)` is connected. -/
theorem C259_fcc_connected (atol : ℝ) (hatol : 0 ≤ atol) (ext : List Nat) (pbc : List Bool) (hd : ext.length = 3) (hp : pbc.length = 3)
    (hpos : ∀ e ∈ ext, 0 < e) (hext : Extended ext pbc) :
    ∃ L g, mkGeom fcc atol ext pbc = .ok L ∧ L.graph = .ok g ∧ g.n = ext.prod ∧ g.isConnected = true := by
  obtain ⟨L, h1, h2, -⟩ := C159_fcc atol hatol ext pbc hd hp hpos hext
  obtain ⟨g, h3⟩ := bravais_connected fccForm (by simp [fcc]) (by simp [fccSteps]) ext pbc hd hp hpos L (by convert h2 using 2; norm_num)
  exact ⟨L, g, h1, h3⟩

/-- C259: `BCC(extent, pbc)` is connected. -/
theorem C259_bcc_connected (atol : ℝ) (hatol : 0 ≤ atol) (ext : List Nat) (pbc : List Bool) (hd : ext.length = 3) (hp : pbc.length = 3)
    (hpos : ∀ e ∈ ext, 0 < e) (hext : Extended ext pbc) :
    ∃ L g, mkGeom bcc atol ext pbc = .ok L ∧ L.graph = .ok g ∧ g.n = ext.prod ∧ g.isConnected = true := by
  obtain ⟨L, h1, h2, -⟩ := C159_bcc atol hatol ext pbc hd hp hpos hext
  obtain ⟨g, h3⟩ := bravais_connected bccForm (by simp [bcc]) (by simp [bccSteps]) ext pbc hd hp hpos L (by convert h2 using 2; norm_num)
  exact ⟨L, g, h1, h3⟩

/-- extents and boundaries in the plane and in space. -/
example : ((∀ e ∈ [2, 1], 0 < e) ∧ Extended [2, 1] [true, false]) ∧ (∀ e ∈ [1, 2, 3], 0 < e) ∧ Extended [1, 2, 3] [true, false, true] := by
  refine ⟨⟨by simp, (2, true), by simp, Or.inl rfl⟩, by simp, (2, false), by simp, Or.inr (by simp)⟩

/-- C259: `BCC(extent, pbc)` is bipartite if every periodic direction has an even number of cells. -/
theorem C259_bcc (atol : ℝ) (hatol : 0 ≤ atol) (ext : List Nat) (pbc : List Bool) (hd : ext.length = 3) (hp : pbc.length = 3)
    (hpos : ∀ e ∈ ext, 0 < e) (hext : Extended ext pbc) (heven : ∀ q ∈ ext.zip pbc, q.2 = true → 2 ∣ q.1) :
    ∃ L g, mkGeom bcc atol ext pbc = .ok L ∧ L.graph = .ok g ∧ g.n = ext.prod ∧ g.isBipartite = true := by
  obtain ⟨L, h1, h2, -⟩ := C159_bcc atol hatol ext pbc hd hp hpos hext
  have hnb : bcc.offsets.length = 1 := by simp [bcc]
  obtain ⟨g, hg, hgn, hE, hiff⟩ := graph_spec L h2.ends
  refine ⟨L, g, h1, hg, by rw [hgn, h2.nodes, hnb, Nat.mul_one], (Grf.C258_bipartite g hE).2 ?_⟩
  obtain ⟨e1, e2, e3, rfl⟩ := List.length_eq_three.1 hd
  obtain ⟨p1, p2, p3, rfl⟩ := List.length_eq_three.1 hp
  have hget : ∀ a, a < g.n → ∃ u, L.basisCoords[a]? = some u := by
    intro a ha
    rw [hgn, Lattice.nNodes] at ha
    exact ⟨_, List.getElem?_eq_getElem ha⟩
  have hpar : ∀ (e : Nat) (p : Bool) (y y' : Int), (p = true → 2 ∣ e) → (if p = true then ∃ n : Int, y' = y + n * (e : Int) else y' = y) → y' % 2 = y % 2 := by
    intro e p y y' he h
    split at h
    · rename_i hp
      obtain ⟨n, rfl⟩ := h
      obtain ⟨k, rfl⟩ := he hp
      have : y + n * ((2 * k : Nat) : Int) = y + 2 * (n * k) := by push_cast; ring
      omega
    · rw [h]
  refine ⟨fun a => (L.basisCoords[a.toNat]?.getD []).sum % 2 == 1, fun a b c he => ?_⟩
  obtain ⟨⟨ha0, ha⟩, hb0, hb⟩ := hE a b c he
  obtain ⟨a, rfl⟩ := Int.eq_ofNat_of_zero_le ha0
  obtain ⟨b, rfl⟩ := Int.eq_ofNat_of_zero_le hb0
  obtain ⟨u, hu⟩ := hget a (by exact_mod_cast ha)
  obtain ⟨v, hv⟩ := hget b (by exact_mod_cast hb)
  simp only [Int.toNat_natCast, hu, hv, Option.getD_some]
  obtain ⟨-, v', him, hdist⟩ := (h2.edges a b u v hu hv).1 ((hiff a b).1 ⟨c, he⟩)
  obtain ⟨x1, x2, x3, q, rfl, -, -, -, hq⟩ := (mem_space h2 u).1 (List.mem_of_getElem? hu)
  obtain ⟨y1, y2, y3, r, rfl, -, -, -, hr⟩ := (mem_space h2 v).1 (List.mem_of_getElem? hv)
  rcases v' with _ | ⟨z1, _ | ⟨z2, _ | ⟨z3, _ | ⟨s, _ | ⟨t, l⟩⟩⟩⟩⟩ <;> simp only [Image, and_false] at him
  obtain ⟨i1, i2, i3, rfl⟩ := him
  have j1 := hpar e1 p1 y1 z1 (heven (e1, p1) (by simp)) i1
  have j2 := hpar e2 p2 y2 z2 (heven (e2, p2) (by simp)) i2
  have j3 := hpar e3 p3 y3 z3 (heven (e3, p3) (by simp)) i3
  have su : IsSite 3 bcc.offsets.length [x1, x2, x3, q] := ⟨rfl, by simpa [lab] using hq⟩
  have sv : IsSite 3 bcc.offsets.length [z1, z2, z3, r] := ⟨rfl, by simpa [lab] using hr⟩
  have hdist' : dist bcc [x1, x2, x3, q] [z1, z2, z3, r] = Real.sqrt (((3 : Nat) : ℝ) / (4 : Nat)) := by rw [hdist]; norm_num
  obtain ⟨δ, hδ, hm⟩ := (bccForm.steps _ _ su sv).1 ((bccForm.dist_iff _ _ su sv).1 hdist')
  rw [hnb] at hq hr
  have hne : (x1 + x2 + x3) % 2 ≠ (y1 + y2 + y3) % 2 := by
    simp only [bccSteps, List.mem_cons, List.not_mem_nil, or_false] at hδ
    rcases hδ with rfl | rfl | rfl | rfl | rfl | rfl | rfl | rfl <;> simp only [Moved, and_true] at hm <;> omega
  intro hcon
  rw [Bool.eq_iff_iff] at hcon
  simp only [beq_iff_eq, List.sum_cons, List.sum_nil] at hcon
  push_cast at hq hr
  omega

/-- a box with one even periodic direction and two open ones. -/
example : ∃ L g, mkGeom bcc 0 [4, 3, 1] [true, false, false] = .ok L ∧ L.graph = .ok g ∧ g.n = 12 ∧ g.isBipartite = true := by
  have := C259_bcc 0 le_rfl [4, 3, 1] [true, false, false] rfl rfl (by simp) ⟨(4, true), by simp, Or.inl rfl⟩ (by
    intro q hq
    simp at hq
    rcases hq with rfl | rfl | rfl <;> simp)
  simpa using this

/-- a lattice with a closed walk of an odd number of steps between nearest neighbours is not bipartite. -/
theorem nearest_odd_cycle {d : Nat} {geo : Geometry d} {ext : List Nat} {pbc : List Bool} {L : Lattice} {d0 : ℝ} (h : NearestGraph geo ext pbc L d0)
    (e : Nat) (hodd : e % 2 = 1) (f : Nat → List Int) (hf : ∀ t < e, f t ∈ L.basisCoords)
    (hnext : ∀ t < e, f t ≠ f ((t + 1) % e) ∧ ∃ v', Image ext pbc (f ((t + 1) % e)) v' ∧ dist geo (f t) v' = d0) :
    ∃ g, L.graph = .ok g ∧ g.n = L.nNodes ∧ g.isBipartite = false := by
  obtain ⟨g, hg, hgn, hE, hiff⟩ := graph_spec L h.ends
  refine ⟨g, hg, hgn, ?_⟩
  rw [Bool.eq_false_iff, Ne, Grf.C258_bipartite g hE]
  rintro ⟨col, hc⟩
  choose! i hi using fun t (ht : t < e) => List.mem_iff_getElem?.1 (hf t ht)
  have hstep : ∀ t < e, col (i t) ≠ col (i ((t + 1) % e)) := by
    intro t ht
    obtain ⟨c, hE'⟩ := (hiff (i t) (i ((t + 1) % e))).2 ((h.edges _ _ _ _ (hi t ht) (hi _ (Nat.mod_lt _ (by omega)))).2 (hnext t ht))
    exact hc _ _ _ hE'
  have alt : ∀ t, t < e → col (i t) = (col (i 0) ^^ (t % 2 == 1)) := by
    intro t
    induction t with
    | zero => simp
    | succ t ih =>
      intro ht
      have h1 := hstep t (by omega)
      rw [Nat.mod_eq_of_lt ht] at h1
      have h2 := ih (by omega)
      have h3 : ((t + 1) % 2 == 1) = !(t % 2 == 1) := by
        rcases Nat.mod_two_eq_zero_or_one t with e | e <;> simp [Nat.add_mod, e]
      rw [h3]
      revert h1 h2
      cases col (i t) <;> cases col (i (t + 1)) <;> cases col (i 0) <;> cases (t % 2 == 1) <;> simp
  have h1 := hstep (e - 1) (by omega)
  have h2 := alt (e - 1) (by omega)
  have h3 : (e - 1) % 2 = 0 := by omega
  rw [show (e - 1 + 1) % e = 0 by rw [Nat.sub_add_cancel (by omega), Nat.mod_self]] at h1
  rw [h3] at h2
  simp at h2
  exact h1 h2

/-- C259: `BCC(extent, pbc)` is not bipartite if a periodic direction has an odd number of cells, at least three. -/
theorem C259_bcc_odd (atol : ℝ) (hatol : 0 ≤ atol) (ext : List Nat) (pbc : List Bool) (hd : ext.length = 3) (hp : pbc.length = 3)
    (hpos : ∀ e ∈ ext, 0 < e) (e : Nat) (he : (e, true) ∈ ext.zip pbc) (hodd : e % 2 = 1) (he3 : 3 ≤ e) :
    ∃ L g, mkGeom bcc atol ext pbc = .ok L ∧ L.graph = .ok g ∧ g.n = ext.prod ∧ g.isBipartite = false := by
  obtain ⟨L, h1, h2, -⟩ := C159_bcc atol hatol ext pbc hd hp hpos ⟨(e, true), he, Or.inl rfl⟩
  have hnb : bcc.offsets.length = 1 := by simp [bcc]
  have hn : L.nNodes = ext.prod := by rw [h2.nodes, hnb, Nat.mul_one]
  obtain ⟨e1, e2, e3, rfl⟩ := List.length_eq_three.1 hd
  obtain ⟨p1, p2, p3, rfl⟩ := List.length_eq_three.1 hp
  have k1 := hpos e1 (by simp)
  have k2 := hpos e2 (by simp)
  have k3 := hpos e3 (by simp)
  have hdist : ∀ (x y z x' y' z' : Int) (δ : List Int), δ ∈ bccSteps 0 0 → Moved [x, y, z, 0] δ [x', y', z', 0] →
      dist bcc [x, y, z, 0] [x', y', z', 0] = Real.sqrt (3 / 4) := by
    intro x y z x' y' z' δ hδ hm
    have su : IsSite 3 bcc.offsets.length [x, y, z, 0] := ⟨rfl, by rw [hnb]; simp [lab]⟩
    have sv : IsSite 3 bcc.offsets.length [x', y', z', 0] := ⟨rfl, by rw [hnb]; simp [lab]⟩
    rw [(bccForm.dist_iff _ _ su sv).2 ((bccForm.steps _ _ su sv).2 ⟨δ, hδ, hm⟩)]
    norm_num
  have hwrap : ∀ t < e, ∃ n : Int, (t : Int) + 1 = (((t + 1) % e : Nat) : Int) + n * (e : Int) := by
    intro t ht
    refine ⟨(((t + 1) / e : Nat) : Int), ?_⟩
    have := Nat.mod_add_div (t + 1) e
    rw [Nat.mul_comm] at this
    exact_mod_cast this.symm
  have hne : ∀ t < e, t ≠ (t + 1) % e := by
    intro t ht h
    rcases Nat.lt_or_ge (t + 1) e with h' | h'
    · rw [Nat.mod_eq_of_lt h'] at h; omega
    · have : t + 1 = e := by omega
      rw [this, Nat.mod_self] at h; omega
  have fin : (∃ g, L.graph = .ok g ∧ g.n = L.nNodes ∧ g.isBipartite = false) →
      ∃ L g, mkGeom bcc atol [e1, e2, e3] [p1, p2, p3] = .ok L ∧ L.graph = .ok g ∧ g.n = [e1, e2, e3].prod ∧ g.isBipartite = false := by
    rintro ⟨g, g1, g2, g3⟩
    exact ⟨L, g, h1, g1, g2.trans hn, g3⟩
  apply fin
  simp only [List.zip_cons_cons, List.zip_nil_right, List.mem_cons, List.not_mem_nil, or_false, Prod.mk.injEq] at he
  rcases he with ⟨rfl, rfl⟩ | ⟨rfl, rfl⟩ | ⟨rfl, rfl⟩
  · refine nearest_odd_cycle h2 e hodd (fun t => [(t : Int), 0, 0, 0]) (fun t ht => (mem_space h2 _).2 ⟨t, 0, 0, 0, rfl, by omega, by omega, by omega, by omega⟩)
      fun t ht => ⟨fun h => hne t ht (by simp at h; exact_mod_cast h), [(t : Int) + 1, 0, 0, 0], ?_, hdist _ _ _ _ _ _ [1, 0, 0] (by decide) (by simp [Moved])⟩
    simp only [Image]
    exact ⟨hwrap t ht, by split <;> [exact ⟨0, by simp⟩; trivial], by split <;> [exact ⟨0, by simp⟩; trivial], trivial⟩
  · refine nearest_odd_cycle h2 e hodd (fun t => [0, (t : Int), 0, 0]) (fun t ht => (mem_space h2 _).2 ⟨0, t, 0, 0, rfl, by omega, by omega, by omega, by omega⟩)
      fun t ht => ⟨fun h => hne t ht (by simp at h; exact_mod_cast h), [0, (t : Int) + 1, 0, 0], ?_, hdist _ _ _ _ _ _ [0, 1, 0] (by decide) (by simp [Moved])⟩
    simp only [Image]
    exact ⟨by split <;> [exact ⟨0, by simp⟩; trivial], hwrap t ht, by split <;> [exact ⟨0, by simp⟩; trivial], trivial⟩
  · refine nearest_odd_cycle h2 e hodd (fun t => [0, 0, (t : Int), 0]) (fun t ht => (mem_space h2 _).2 ⟨0, 0, t, 0, rfl, by omega, by omega, by omega, by omega⟩)
      fun t ht => ⟨fun h => hne t ht (by simp at h; exact_mod_cast h), [0, 0, (t : Int) + 1, 0], ?_, hdist _ _ _ _ _ _ [0, 0, 1] (by decide) (by simp [Moved])⟩
    simp only [Image]
    exact ⟨by split <;> [exact ⟨0, by simp⟩; trivial], by split <;> [exact ⟨0, by simp⟩; trivial], hwrap t ht, trivial⟩

/-- a box with an odd periodic direction. -/
example : ∃ L g, mkGeom bcc 0 [4, 3, 1] [true, true, false] = .ok L ∧ L.graph = .ok g ∧ g.n = 12 ∧ g.isBipartite = false := by
  have := C259_bcc_odd 0 le_rfl [4, 3, 1] [true, true, false] rfl rfl (by simp) 3 (by simp) (by decide) le_rfl
  simpa using this

end

end Verif.Lat
