import Verif.Model.LatticeGraph
import Verif.Props.GraphConn
import Verif.Props.Lattice
import Verif.Props.LatticeArgs
import Verif.Props.CommonLattices

/-! C259: grids are connected; which grids are bipartite. -/

namespace Verif.Lat
open Verif.Hilbert (Err)
open Verif.Grf (HasEdge EdgesIn TwoColouring Walk)

/-- every periodic direction has an even number of cells, or one cell only. -/
def EvenAxes (ext : List Nat) (pbc : List Bool) : Prop := ∀ q ∈ ext.zip pbc, q.2 = true → q.1 = 1 ∨ q.1 % 2 = 0

theorem mem_inner_cons (e : Nat) (es : List Nat) (nb : Nat) (c : List Int) :
    c ∈ inner (e :: es) nb ↔ ∃ x xs, c = x :: xs ∧ (0 ≤ x ∧ x < (e : Int)) ∧ xs ∈ inner es nb := by
  rw [inner, List.map_cons, List.cons_append, mem_cart_cons]
  simp only [mem_upto, inner]

theorem mem_inner_nil (c : List Int) : c ∈ inner [] 1 ↔ c = [0] := by
  rw [inner, List.map_nil, List.nil_append, mem_cart_cons]
  simp only [mem_upto, mem_cart_nil]
  constructor
  · rintro ⟨x, xs, rfl, hx, rfl⟩
    have : x = 0 := by omega
    rw [this]
  · rintro rfl
    exact ⟨0, [], rfl, by simp, rfl⟩

theorem inner_sum_nonneg (ext : List Nat) (u : List Int) (hu : u ∈ inner ext 1) : 0 ≤ u.sum := by
  induction ext generalizing u with
  | nil => rw [(mem_inner_nil u).1 hu]; simp
  | cons e es ih =>
    obtain ⟨x, xs, rfl, hx, hxs⟩ := (mem_inner_cons _ _ _ _).1 hu
    have := ih xs hxs
    rw [List.sum_cons]; omega

theorem inner_sum_zero (ext : List Nat) (u v : List Int) (hu : u ∈ inner ext 1) (hv : v ∈ inner ext 1) (h : u.sum = 0)
    (h' : v.sum = 0) : u = v := by
  induction ext generalizing u v with
  | nil => rw [(mem_inner_nil u).1 hu, (mem_inner_nil v).1 hv]
  | cons e es ih =>
    obtain ⟨x, xs, rfl, hx, hxs⟩ := (mem_inner_cons _ _ _ _).1 hu
    obtain ⟨y, ys, rfl, hy, hys⟩ := (mem_inner_cons _ _ _ _).1 hv
    have h1 := inner_sum_nonneg es xs hxs
    have h2 := inner_sum_nonneg es ys hys
    rw [List.sum_cons] at h h'
    rw [ih xs ys hxs hys (by omega) (by omega)]
    congr 1
    omega

theorem step_down (ext : List Nat) (pbc : List Bool) (hlen : ext.length = pbc.length) (u : List Int) (hu : u ∈ inner ext 1)
    (h : u.sum ≠ 0) : ∃ v ∈ inner ext 1, WrapStep ext pbc v u ∧ v.sum = u.sum - 1 := by
  induction ext generalizing pbc u with
  | nil => rw [(mem_inner_nil u).1 hu] at h; simp at h
  | cons e es ih =>
    cases pbc with
    | nil => simp at hlen
    | cons p ps =>
      obtain ⟨x, xs, rfl, hx, hxs⟩ := (mem_inner_cons _ _ _ _).1 hu
      by_cases hx0 : x = 0
      · subst hx0
        obtain ⟨v, h1, h2, h3⟩ := ih ps (by simpa using hlen) xs hxs (by simpa using h)
        refine ⟨0 :: v, (mem_inner_cons _ _ _ _).2 ⟨0, v, rfl, hx, h1⟩, Or.inr ⟨rfl, h2⟩, ?_⟩
        simp [h3]
      · refine ⟨(x - 1) :: xs, (mem_inner_cons _ _ _ _).2 ⟨_, _, rfl, by omega, hxs⟩, Or.inl ⟨Or.inl (by omega), rfl⟩, ?_⟩
        simp only [List.sum_cons]; omega

theorem step_parity (ext : List Nat) (pbc : List Bool) (hev : EvenAxes ext pbc) (u v : List Int) (hu : u ∈ inner ext 1)
    (hv : v ∈ inner ext 1) (hne : u ≠ v) (h : WrapStep ext pbc u v) : (u.sum + v.sum) % 2 = 1 := by
  induction ext generalizing pbc u v with
  | nil => simp [WrapStep] at h
  | cons e es ih =>
    cases pbc with
    | nil => simp [WrapStep] at h
    | cons p ps =>
      obtain ⟨x, xs, rfl, hx, hxs⟩ := (mem_inner_cons _ _ _ _).1 hu
      obtain ⟨y, ys, rfl, hy, hys⟩ := (mem_inner_cons _ _ _ _).1 hv
      rcases h with ⟨h1, rfl⟩ | ⟨rfl, h⟩
      · simp only [List.sum_cons]
        rcases h1 with h1 | ⟨hp, h1, h2⟩
        · omega
        · have := hev (e, p) (by simp) hp
          simp only at this
          rcases this with h3 | h3
          · exact absurd (by rw [h1, h2, h3]; rfl) hne
          · omega
      · have := ih ps (fun q hq => hev q (by rw [List.zip_cons_cons]; exact List.mem_cons_of_mem _ hq)) xs ys hxs hys
          (fun h => hne (by rw [h])) h
        simp only [List.sum_cons]; omega

theorem inner_zero (ext : List Nat) (hpos : ∀ e ∈ ext, 0 < e) : ∃ z, z ∈ inner ext 1 := by
  induction ext with
  | nil => exact ⟨[0], (mem_inner_nil _).2 rfl⟩
  | cons e es ih =>
    obtain ⟨z, hz⟩ := ih fun q hq => hpos q (List.mem_cons_of_mem _ hq)
    have := hpos e (by simp)
    exact ⟨0 :: z, (mem_inner_cons _ _ _ _).2 ⟨0, z, rfl, by omega, hz⟩⟩

theorem axis_cycle (ext : List Nat) (pbc : List Bool) (hpos : ∀ e ∈ ext, 0 < e) (e : Nat) (he : (e, true) ∈ ext.zip pbc)
    (h1 : e ≠ 1) :
    ∃ f : Nat → List Int, (∀ t, t < e → f t ∈ inner ext 1)
      ∧ (∀ t, t + 1 < e → f t ≠ f (t + 1) ∧ WrapStep ext pbc (f t) (f (t + 1)))
      ∧ f (e - 1) ≠ f 0 ∧ WrapStep ext pbc (f (e - 1)) (f 0) := by
  induction ext generalizing pbc with
  | nil => simp at he
  | cons d ds ih =>
    cases pbc with
    | nil => simp at he
    | cons p ps =>
      have hd := hpos d (by simp)
      rw [List.zip_cons_cons, List.mem_cons] at he
      rcases he with he | he
      · obtain ⟨rfl, rfl⟩ := Prod.mk.inj he
        obtain ⟨z, hz⟩ := inner_zero ds fun q hq => hpos q (List.mem_cons_of_mem _ hq)
        refine ⟨fun t => (t : Int) :: z, fun t ht => (mem_inner_cons _ _ _ _).2 ⟨_, _, rfl, by omega, hz⟩, fun t ht => ⟨?_, ?_⟩, ?_, ?_⟩
        · simp
        · exact Or.inl ⟨Or.inl (by push_cast; rfl), rfl⟩
        · simp only [ne_eq, List.cons.injEq, and_true]; omega
        · exact Or.inl ⟨Or.inr ⟨rfl, by omega, rfl⟩, rfl⟩
      · obtain ⟨f, h2, h3, h4, h5⟩ := ih ps (fun q hq => hpos q (List.mem_cons_of_mem _ hq)) he
        refine ⟨fun t => 0 :: f t, fun t ht => (mem_inner_cons _ _ _ _).2 ⟨_, _, rfl, by omega, h2 t ht⟩,
          fun t ht => ⟨?_, Or.inr ⟨rfl, (h3 t ht).2⟩⟩, ?_, Or.inr ⟨rfl, h5⟩⟩
        · simpa using (h3 t ht).1
        · simpa using h4

theorem graph_spec (L : Lattice) (h : ∀ e ∈ L.edges, e.1 ≠ e.2 ∧ e.1 < L.nNodes ∧ e.2 < L.nNodes) :
    ∃ g, L.graph = .ok g ∧ g.n = L.nNodes ∧ EdgesIn g
      ∧ ∀ a b : Nat, (∃ c, HasEdge g a b c) ↔ ((a, b) ∈ L.edges ∨ (b, a) ∈ L.edges) := by
  have hall : (L.edges.map fun e => ((((e.1 : Int), (e.2 : Int)), (0 : Int)))).all (fun e => decide (0 ≤ e.1.1)
      && decide (e.1.1 < (L.nNodes : Int)) && decide (0 ≤ e.1.2) && decide (e.1.2 < (L.nNodes : Int))) = true := by
    simp only [List.all_eq_true, List.mem_map, Bool.and_eq_true, decide_eq_true_eq]
    rintro _ ⟨e, he, rfl⟩
    have := h e he
    simp only
    omega
  have hg : L.graph = .ok ⟨L.nNodes, (L.edges.map fun e => ((((e.1 : Int), (e.2 : Int)), (0 : Int)))).map
      fun e => ((min e.1.1 e.1.2, max e.1.1 e.1.2), e.2)⟩ := by
    unfold Lattice.graph Grf.addEdges
    rw [if_neg (by omega), if_pos hall]
    simp
  refine ⟨_, hg, rfl, ?_, ?_⟩
  · have key : ∀ u v c, ((u, v), c) ∈ (L.edges.map fun e => ((((e.1 : Int), (e.2 : Int)), (0 : Int)))).map
        (fun e => ((min e.1.1 e.1.2, max e.1.1 e.1.2), e.2)) → (0 ≤ u ∧ u < (L.nNodes : Int)) ∧ (0 ≤ v ∧ v < (L.nNodes : Int)) := by
      intro u v c he
      simp only [List.map_map, List.mem_map, Function.comp, Prod.mk.injEq] at he
      obtain ⟨e, he, ⟨rfl, rfl⟩, -⟩ := he
      have := h e he
      omega
    rintro u v c (he | he)
    · exact key u v c he
    · exact (key v u c he).symm
  · intro a b
    simp only [HasEdge, List.map_map, List.mem_map, Function.comp, Prod.mk.injEq]
    constructor
    · rintro ⟨c, ⟨e, he, ⟨h1, h2⟩, -⟩ | ⟨e, he, ⟨h1, h2⟩, -⟩⟩
      all_goals
        have : (e.1 = a ∧ e.2 = b) ∨ (e.1 = b ∧ e.2 = a) := by omega
        rcases this with ⟨rfl, rfl⟩ | ⟨rfl, rfl⟩
        · exact Or.inl he
        · exact Or.inr he
    · rintro (he | he)
      · rcases Nat.le_total a b with hab | hab
        · exact ⟨0, Or.inl ⟨_, he, ⟨by simp only; omega, by simp only; omega⟩, rfl⟩⟩
        · exact ⟨0, Or.inr ⟨_, he, ⟨by simp only; omega, by simp only; omega⟩, rfl⟩⟩
      · rcases Nat.le_total a b with hab | hab
        · exact ⟨0, Or.inl ⟨_, he, ⟨by simp only; omega, by simp only; omega⟩, rfl⟩⟩
        · exact ⟨0, Or.inr ⟨_, he, ⟨by simp only; omega, by simp only; omega⟩, rfl⟩⟩

/-- C259: `Grid(extent, pbc)` is connected, and it is bipartite exactly if every periodic direction has an even number of cells or one. -/
theorem C259_grid (ext : List Nat) (pbc : List Bool) (hlen : ext.length = pbc.length) (hpos : ∀ e ∈ ext, 0 < e)
    (hext : Extended ext pbc) :
    ∃ L g, mkGrid ext pbc = .ok L ∧ L.graph = .ok g ∧ g.n = ext.prod ∧ g.isConnected = true
      ∧ (g.isBipartite = true ↔ EvenAxes ext pbc) := by
  obtain ⟨L, hL, hco, hed, hin, -⟩ := C35_grid_edges ext pbc hlen hpos hext
  obtain ⟨L', hL', hn, hnd, -, -, -, -⟩ := C34_grid ext pbc hlen hpos hext
  rw [hL] at hL'
  cases hL'
  obtain ⟨g, hg, hgn, hE, hiff⟩ := graph_spec L hin
  have hco : L.basisCoords = inner ext 1 := hco
  have hlt : ∀ {a : Nat} {u : List Int}, L.basisCoords[a]? = some u → a < g.n := by
    intro a u h
    rw [hgn, Lattice.nNodes]
    exact (List.getElem?_eq_some_iff.1 h).1
  have hmem : ∀ {a : Nat} {u : List Int}, L.basisCoords[a]? = some u → u ∈ inner ext 1 := by
    intro a u h
    rw [← hco]; exact List.mem_of_getElem? h
  have hidx : ∀ u ∈ inner ext 1, ∃ a : Nat, L.basisCoords[a]? = some u := by
    intro u hu
    rw [← hco] at hu
    exact List.mem_iff_getElem?.1 hu
  have hget : ∀ a, a < g.n → ∃ u, L.basisCoords[a]? = some u := by
    intro a ha
    rw [hgn, Lattice.nNodes] at ha
    exact ⟨_, List.getElem?_eq_getElem ha⟩
  have hstep : ∀ {a b : Nat} {u v : List Int}, L.basisCoords[a]? = some u → L.basisCoords[b]? = some v → u ≠ v →
      (WrapStep ext pbc u v ∨ WrapStep ext pbc v u) → ∃ c, HasEdge g a b c := by
    intro a b u v ha hb hne h
    exact (hiff a b).2 ((hed a b u v ha hb).2 ⟨hne, h⟩)
  have hgpos : 0 < g.n := by
    obtain ⟨z, hz⟩ := inner_zero ext hpos
    obtain ⟨a, ha⟩ := hidx z hz
    exact Nat.lt_of_le_of_lt (Nat.zero_le _) (hlt ha)
  refine ⟨L, g, hL, hg, hgn.trans hn, ?_, ?_⟩
  · have down : ∀ (s : Nat) (a : Nat) (u : List Int), L.basisCoords[a]? = some u → u.sum = s →
        ∃ (z : Nat) (w : List Int), L.basisCoords[z]? = some w ∧ w.sum = 0 ∧ ∃ k, Walk g a k z := by
      intro s
      induction s with
      | zero => exact fun a u ha hs => ⟨a, u, ha, by simpa using hs, 0, .start⟩
      | succ s ih =>
        intro a u ha hs
        obtain ⟨v, hv, hvs, hsum⟩ := step_down ext pbc hlen u (hmem ha) (by omega)
        obtain ⟨b, hb⟩ := hidx v hv
        obtain ⟨z, w, hz, hw, k, hk⟩ := ih b v hb (by omega)
        have hne : u ≠ v := fun h => by rw [h] at hsum; omega
        exact ⟨z, w, hz, hw, 1 + k, Grf.walk_trans (.step .start (hlt hb) (hstep ha hb hne (Or.inr hvs))) hk⟩
    refine (Grf.C258_connected g hgpos).2 fun a b ha hb => ?_
    obtain ⟨u, hu⟩ := hget a ha
    obtain ⟨v, hv⟩ := hget b hb
    obtain ⟨z, w, hz, hw, k, hk⟩ := down u.sum.toNat a u hu (by have := inner_sum_nonneg ext u (hmem hu); omega)
    obtain ⟨z', w', hz', hw', l, hl⟩ := down v.sum.toNat b v hv (by have := inner_sum_nonneg ext v (hmem hv); omega)
    have e : w = w' := inner_sum_zero ext w w' (hmem hz) (hmem hz') hw hw'
    subst e
    obtain ⟨p1, p2⟩ := List.getElem?_eq_some_iff.1 hz
    obtain ⟨p3, p4⟩ := List.getElem?_eq_some_iff.1 hz'
    have e : z = z' := (hnd.getElem_inj_iff).1 (p2.trans p4.symm)
    subst e
    exact ⟨k + l, Grf.walk_trans hk (Grf.walk_symm hb hl)⟩
  · rw [Grf.C258_bipartite g hE]
    constructor
    · rintro ⟨col, hc⟩ ⟨e, p⟩ hq hp
      simp only at hp ⊢
      subst hp
      by_contra hcon
      push Not at hcon
      obtain ⟨f, f1, f2, f3, f4⟩ := axis_cycle ext pbc hpos e hq hcon.1
      have hepos : 0 < e := hpos e (List.of_mem_zip hq).1
      choose! i hi using fun t (ht : t < e) => hidx (f t) (f1 t ht)
      have alt : ∀ t, t < e → col (i t) = (col (i 0) ^^ (t % 2 == 1)) := by
        intro t
        induction t with
        | zero => simp
        | succ t ih =>
          intro ht
          obtain ⟨c, hE⟩ := hstep (hi t (by omega)) (hi (t + 1) ht) (f2 t ht).1 (Or.inl (f2 t ht).2)
          have h1 := hc _ _ _ hE
          have h2 := ih (by omega)
          have h3 : ((t + 1) % 2 == 1) = !(t % 2 == 1) := by
            rcases Nat.mod_two_eq_zero_or_one t with e | e <;> simp [Nat.add_mod, e]
          rw [h3]
          revert h1 h2
          cases col (i t) <;> cases col (i (t + 1)) <;> cases col (i 0) <;> cases (t % 2 == 1) <;> simp
      obtain ⟨c, hE⟩ := hstep (hi (e - 1) (by omega)) (hi 0 hepos) f3 (Or.inl f4)
      have h1 := hc _ _ _ hE
      have h2 := alt (e - 1) (by omega)
      have h3 : (e - 1) % 2 = 0 := by omega
      rw [h3] at h2
      simp at h2
      exact h1 h2
    · intro hev
      refine ⟨fun a => ((L.basisCoords[a.toNat]?.getD []).sum % 2 == 1), fun a b c he => ?_⟩
      obtain ⟨⟨ha0, ha⟩, hb0, hb⟩ := hE a b c he
      obtain ⟨a, rfl⟩ := Int.eq_ofNat_of_zero_le ha0
      obtain ⟨b, rfl⟩ := Int.eq_ofNat_of_zero_le hb0
      obtain ⟨u, hu⟩ := hget a (by exact_mod_cast ha)
      obtain ⟨v, hv⟩ := hget b (by exact_mod_cast hb)
      simp only [Int.toNat_natCast, hu, hv, Option.getD_some]
      obtain ⟨hne, h⟩ := (hed a b u v hu hv).1 ((hiff a b).1 ⟨c, he⟩)
      have hpar : (u.sum + v.sum) % 2 = 1 := by
        rcases h with h | h
        · exact step_parity ext pbc hev u v (hmem hu) (hmem hv) hne h
        · have := step_parity ext pbc hev v u (hmem hv) (hmem hu) hne.symm h
          omega
      intro hcon
      have h1 : u.sum % 2 = 1 ↔ v.sum % 2 = 1 := by
        rw [Bool.eq_iff_iff] at hcon
        simpa using hcon
      omega

/-- C259: `Hypercube(length, n_dim, pbc)`, and so `Chain`, `Square` and `Cube`, is bipartite exactly if it is open or the length is even or 1. -/
theorem C259_hypercube (length nDim : Nat) (b : Bool) (hl : 0 < length) (hb : b = true ∨ 2 ≤ length) (hd : 0 < nDim) :
    ∃ L g, LatArgs.hypercube length nDim (.bool b) = .ok (L, List.replicate nDim b) ∧ L.graph = .ok g ∧ g.n = length ^ nDim
      ∧ g.isConnected = true ∧ (g.isBipartite = true ↔ (b = true → length = 1 ∨ length % 2 = 0)) := by
  obtain ⟨L, h1, h2, h3⟩ := (LatArgs.C160_hypercube length b hl hb).1 nDim hd
  have hz : (List.replicate nDim length).zip (List.replicate nDim b) = List.replicate nDim (length, b) := List.zip_replicate' ..
  obtain ⟨L', g, h4, h5, h6, h7, h8⟩ := C259_grid (List.replicate nDim length) (List.replicate nDim b) (by simp)
    (fun e he => by rw [(List.mem_replicate.1 he).2]; exact hl)
    ⟨(length, b), by rw [hz, List.mem_replicate]; exact ⟨by omega, rfl⟩, hb⟩
  rw [h2] at h4
  cases h4
  refine ⟨L, g, h1, h5, by rw [h6, List.prod_replicate], h7, h8.trans ⟨fun h => ?_, fun h q hq => ?_⟩⟩
  · exact h (length, b) (by rw [hz, List.mem_replicate]; exact ⟨by omega, rfl⟩)
  · rw [hz, List.mem_replicate] at hq
    rw [hq.2]
    exact h

/-- the hypotheses hold for a torus of 4 by 3 cells, which is not bipartite, and a cylinder, which is. -/
example : Extended [4, 3] [true, true] ∧ ¬ EvenAxes [4, 3] [true, true] ∧ EvenAxes [4, 3] [true, false] := by
  refine ⟨⟨(4, true), by simp, Or.inl rfl⟩, fun h => ?_, ?_⟩
  · have := h (3, true) (by simp) rfl
    simp at this
  · intro q hq
    simp at hq
    rcases hq with rfl | rfl <;> simp

example : ∃ L g, LatArgs.hypercube 5 1 (.bool true) = .ok (L, [true]) ∧ L.graph = .ok g ∧ g.isBipartite = false := by
  obtain ⟨L, g, h1, h2, -, -, h3⟩ := C259_hypercube 5 1 true (by omega) (Or.inl rfl) (by omega)
  refine ⟨L, g, h1, h2, ?_⟩
  by_contra h
  have := h3.1 (by simpa using h) rfl
  omega

section
open Verif.CommonLat

theorem lab_append (l : List Int) (q : Int) : lab (l ++ [q]) = q := by simp [lab]

/-- a lattice whose nearest neighbours have different numbers in their cells, two to a cell, is bipartite. -/
theorem nearest_bipartite {d : Nat} {geo : Geometry d} {N k0 : Nat} {S : Int → Int → List (List Int)} (F : Form geo N k0 S)
    (hnb : geo.offsets.length = 2) (hS : ∀ q, S q q = []) (ext : List Nat) (pbc : List Bool) (hd : ext.length = d)
    (L : Lattice) (h : NearestGraph geo ext pbc L (Real.sqrt ((k0 : ℝ) / N))) :
    ∃ g, L.graph = .ok g ∧ g.n = 2 * ext.prod ∧ g.isBipartite = true := by
  obtain ⟨g, hg, hgn, hE, hiff⟩ := graph_spec L h.ends
  refine ⟨g, hg, by rw [hgn, h.nodes, hnb, Nat.mul_comm], (Grf.C258_bipartite g hE).2 ?_⟩
  have hget : ∀ a, a < g.n → ∃ u, L.basisCoords[a]? = some u := by
    intro a ha
    rw [hgn, Lattice.nNodes] at ha
    exact ⟨_, List.getElem?_eq_getElem ha⟩
  have hsite : ∀ {a : Nat} {u : List Int}, L.basisCoords[a]? = some u → IsSite d geo.offsets.length u := by
    intro a u hu
    have hm := (h.sites u).1 (List.mem_of_getElem? hu)
    have hl := hm.length_eq
    rw [List.length_append, hd] at hl
    obtain ⟨l, q, rfl⟩ : ∃ l q, u = l ++ [q] := by
      have : u ≠ [] := by rintro rfl; simp at hl
      exact ⟨_, _, (List.dropLast_append_getLast this).symm⟩
    have hl' : l.length = ext.length := by simp at hl; omega
    have := (List.forall₂_iff_get.1 hm).2 l.length (by simp) (by simp [hl'])
    refine ⟨by simpa using hl, ?_⟩
    rw [lab_append]
    simpa [hl'] using this
  refine ⟨fun a => lab (L.basisCoords[a.toNat]?.getD []) == 1, fun a b c he => ?_⟩
  obtain ⟨⟨ha0, ha⟩, hb0, hb⟩ := hE a b c he
  obtain ⟨a, rfl⟩ := Int.eq_ofNat_of_zero_le ha0
  obtain ⟨b, rfl⟩ := Int.eq_ofNat_of_zero_le hb0
  obtain ⟨u, hu⟩ := hget a (by exact_mod_cast ha)
  obtain ⟨v, hv⟩ := hget b (by exact_mod_cast hb)
  simp only [Int.toNat_natCast, hu, hv, Option.getD_some]
  obtain ⟨-, v', him, hdist⟩ := (h.edges a b u v hu hv).1 ((hiff a b).1 ⟨c, he⟩)
  have su := hsite hu
  have sv := hsite hv
  obtain ⟨sv', hlab⟩ := image_site ext pbc _ v v' (by rw [hd]; exact sv) him
  rw [hd] at sv'
  obtain ⟨δ, hδ, -⟩ := (F.steps u v' su sv').1 ((F.dist_iff u v' su sv').1 hdist)
  have hne : lab u ≠ lab v := by
    intro e
    rw [hlab, e, hS] at hδ
    simp at hδ
  have h1 := su.2
  have h2 := sv.2
  rw [hnb] at h1 h2
  intro hcon
  have h3 : lab u = 1 ↔ lab v = 1 := by
    rw [Bool.eq_iff_iff] at hcon
    simpa using hcon
  push_cast at h1 h2
  omega

/-- C259: `Honeycomb(extent, pbc)` is bipartite for all extents and boundary conditions. -/
theorem C259_honeycomb (atol : ℝ) (hatol : 0 ≤ atol) (ext : List Nat) (pbc : List Bool) (hd : ext.length = 2) (hp : pbc.length = 2)
    (hpos : ∀ e ∈ ext, 0 < e) :
    ∃ L g, mkGeom honeycomb atol ext pbc = .ok L ∧ L.graph = .ok g ∧ g.n = 2 * ext.prod ∧ g.isBipartite = true := by
  obtain ⟨L, h1, h2, -⟩ := C159_honeycomb atol hatol ext pbc hd hp hpos
  obtain ⟨g, h3, h4, h5⟩ := nearest_bipartite honeycombForm (by simp [honeycomb]) (fun q => by
    rw [honeycombSteps, if_neg (by omega), if_neg (by omega)]) ext pbc hd L (by
    have : Real.sqrt (((3 : Nat) : ℝ) / (9 : Nat)) = Real.sqrt (1 / 3) := by norm_num
    rw [this]; exact h2)
  exact ⟨L, g, h1, h3, h4, h5⟩

/-- C259: `Diamond(extent, pbc)` is bipartite for all extents and boundary conditions. -/
theorem C259_diamond (atol : ℝ) (hatol : 0 ≤ atol) (ext : List Nat) (pbc : List Bool) (hd : ext.length = 3) (hp : pbc.length = 3)
    (hpos : ∀ e ∈ ext, 0 < e) :
    ∃ L g, mkGeom diamond atol ext pbc = .ok L ∧ L.graph = .ok g ∧ g.n = 2 * ext.prod ∧ g.isBipartite = true := by
  obtain ⟨L, h1, h2, -⟩ := C159_diamond atol hatol ext pbc hd hp hpos
  obtain ⟨g, h3, h4, h5⟩ := nearest_bipartite diamondForm (by simp [diamond]) (fun q => by
    rw [diamondSteps, if_neg (by omega), if_neg (by omega)]) ext pbc hd L (by simpa using h2)
  exact ⟨L, g, h1, h3, h4, h5⟩

theorem image_refl (ext : List Nat) (pbc : List Bool) (v : List Int) (hp : pbc.length = ext.length) (hv : v.length = ext.length + 1) :
    Image ext pbc v v := by
  induction ext generalizing pbc v with
  | nil =>
    obtain ⟨q, rfl⟩ := List.length_eq_one_iff.1 hv
    obtain rfl : pbc = [] := List.eq_nil_of_length_eq_zero hp
    simp [Image]
  | cons e es ih =>
    rcases pbc with _ | ⟨p, ps⟩
    · simp at hp
    · rcases v with _ | ⟨y, ys⟩
      · simp at hv
      · rw [Image]
        refine ⟨?_, ih ps ys (by simpa using hp) (by simpa using hv)⟩
        split
        · exact ⟨0, by simp⟩
        · rfl

/-- a lattice with three sites that are nearest neighbours of each other is not bipartite. -/
theorem nearest_triangle {d : Nat} {geo : Geometry d} {N k0 : Nat} {S : Int → Int → List (List Int)} (F : Form geo N k0 S)
    (ext : List Nat) (pbc : List Bool) (hd : ext.length = d) (hp : pbc.length = d)
    (L : Lattice) (h : NearestGraph geo ext pbc L (Real.sqrt ((k0 : ℝ) / N))) (u v w : List Int)
    (hu : u ∈ L.basisCoords) (hv : v ∈ L.basisCoords) (hw : w ∈ L.basisCoords) (huv : u ≠ v) (hvw : v ≠ w) (hwu : w ≠ u)
    (su : IsSite d geo.offsets.length u) (sv : IsSite d geo.offsets.length v) (sw : IsSite d geo.offsets.length w)
    (e1 : ∃ δ ∈ S (lab u) (lab v), Moved u δ v) (e2 : ∃ δ ∈ S (lab v) (lab w), Moved v δ w)
    (e3 : ∃ δ ∈ S (lab w) (lab u), Moved w δ u) :
    ∃ g, L.graph = .ok g ∧ g.n = geo.offsets.length * ext.prod ∧ g.isBipartite = false := by
  obtain ⟨g, hg, hgn, hE, hiff⟩ := graph_spec L h.ends
  refine ⟨g, hg, by rw [hgn, h.nodes, Nat.mul_comm], ?_⟩
  obtain ⟨a, ha⟩ := List.mem_iff_getElem?.1 hu
  obtain ⟨b, hb⟩ := List.mem_iff_getElem?.1 hv
  obtain ⟨c, hc⟩ := List.mem_iff_getElem?.1 hw
  have hlt : ∀ {i : Nat} {x : List Int}, L.basisCoords[i]? = some x → i < g.n := by
    intro i x hx
    rw [hgn, Lattice.nNodes]
    exact (List.getElem?_eq_some_iff.1 hx).1
  have step : ∀ {i j : Nat} {x y : List Int}, L.basisCoords[i]? = some x → L.basisCoords[j]? = some y → x ≠ y →
      IsSite d geo.offsets.length x → IsSite d geo.offsets.length y → (∃ δ ∈ S (lab x) (lab y), Moved x δ y) → ∃ c, HasEdge g i j c := by
    intro i j x y hx hy hne sx sy hs
    refine (hiff i j).2 ((h.edges i j x y hx hy).2 ⟨hne, y, image_refl ext pbc y (by omega) (by rw [hd]; exact sy.1), ?_⟩)
    exact (F.dist_iff x y sx sy).2 ((F.steps x y sx sy).2 hs)
  rw [Grf.C258_odd_cycle g hE]
  exact ⟨a, 3, hlt ha, rfl, .step (.step (.step .start (hlt hb) (step ha hb huv su sv e1)) (hlt hc) (step hb hc hvw sv sw e2))
    (hlt ha) (step hc ha hwu sw su e3)⟩

/-- C259: `Kagome(extent, pbc)` is not bipartite. -/
theorem C259_kagome (atol : ℝ) (hatol : 0 ≤ atol) (ext : List Nat) (pbc : List Bool) (hd : ext.length = 2) (hp : pbc.length = 2)
    (hpos : ∀ e ∈ ext, 0 < e) :
    ∃ L g, mkGeom kagome atol ext pbc = .ok L ∧ L.graph = .ok g ∧ g.n = 3 * ext.prod ∧ g.isBipartite = false := by
  obtain ⟨L, h1, h2, -⟩ := C159_kagome atol hatol ext pbc hd hp hpos
  have hnb : kagome.offsets.length = 3 := by simp [kagome]
  have hs : Real.sqrt (((1 : Nat) : ℝ) / (4 : Nat)) = 1 / 2 := by
    rw [show (((1 : Nat) : ℝ) / (4 : Nat)) = (1 / 2) ^ 2 by norm_num, Real.sqrt_sq (by norm_num)]
  have hbox : ∀ q : Int, 0 ≤ q → q < 3 → [0, 0, q] ∈ L.basisCoords := by
    intro q h0 h3
    rw [h2.sites, hnb]
    obtain ⟨a, b, rfl⟩ := List.length_eq_two.1 hd
    have := hpos a (by simp)
    have := hpos b (by simp)
    simp
    omega
  have hsite : ∀ q : Int, 0 ≤ q → q < 3 → IsSite 2 kagome.offsets.length [0, 0, q] := by
    intro q h0 h3
    refine ⟨rfl, ?_⟩
    rw [hnb]
    simp [lab]
    omega
  obtain ⟨g, h3, h4, h5⟩ := nearest_triangle kagomeForm ext pbc hd hp L (by rw [hs]; exact h2) [0, 0, 0] [0, 0, 1] [0, 0, 2]
    (hbox 0 (by omega) (by omega)) (hbox 1 (by omega) (by omega)) (hbox 2 (by omega) (by omega)) (by decide) (by decide) (by decide)
    (hsite 0 (by omega) (by omega)) (hsite 1 (by omega) (by omega)) (hsite 2 (by omega) (by omega))
    ⟨[0, 0], by decide, by simp [Moved]⟩ ⟨[0, 0], by decide, by simp [Moved]⟩ ⟨[0, 0], by decide, by simp [Moved]⟩
  exact ⟨L, g, h1, h3, by rw [h4, hnb], h5⟩

/-- C259: `Triangular(extent, pbc)` with at least two cells along both directions is not bipartite. -/
theorem C259_triangular (atol : ℝ) (hatol : 0 ≤ atol) (ext : List Nat) (pbc : List Bool) (hd : ext.length = 2) (hp : pbc.length = 2)
    (hbig : ∀ e ∈ ext, 2 ≤ e) :
    ∃ L g, mkGeom triangular atol ext pbc = .ok L ∧ L.graph = .ok g ∧ g.n = ext.prod ∧ g.isBipartite = false := by
  obtain ⟨a, b, rfl⟩ := List.length_eq_two.1 hd
  have ha := hbig a (by simp)
  have hb := hbig b (by simp)
  obtain ⟨p, q, rfl⟩ := List.length_eq_two.1 hp
  obtain ⟨L, h1, h2, -⟩ := C159_triangular atol hatol [a, b] [p, q] hd hp (fun e he => by have := hbig e he; omega)
    ⟨(a, p), by simp, Or.inr ha⟩
  have hnb : triangular.offsets.length = 1 := by simp [triangular]
  have hbox : ∀ x y : Int, 0 ≤ x → x < 2 → 0 ≤ y → y < 2 → [x, y, 0] ∈ L.basisCoords := by
    intro x y _ _ _ _
    rw [h2.sites, hnb]
    simp
    omega
  have hsite : ∀ x y : Int, IsSite 2 triangular.offsets.length [x, y, 0] := by
    intro x y
    refine ⟨rfl, ?_⟩
    rw [hnb]
    simp [lab]
  obtain ⟨g, h3, h4, h5⟩ := nearest_triangle triangularForm [a, b] [p, q] hd hp L (by simpa using h2) [0, 0, 0] [1, 0, 0] [0, 1, 0]
    (hbox 0 0 (by omega) (by omega) (by omega) (by omega)) (hbox 1 0 (by omega) (by omega) (by omega) (by omega))
    (hbox 0 1 (by omega) (by omega) (by omega) (by omega)) (by decide) (by decide) (by decide)
    (hsite 0 0) (hsite 1 0) (hsite 0 1)
    ⟨[1, 0], by decide, by simp [Moved]⟩ ⟨[-1, 1], by decide, by simp [Moved]⟩ ⟨[0, -1], by decide, by simp [Moved]⟩
  exact ⟨L, g, h1, h3, by rw [h4, hnb, Nat.one_mul], h5⟩

/-- C259: `Pyrochlore(extent, pbc)` is not bipartite. -/
theorem C259_pyrochlore (atol : ℝ) (hatol : 0 ≤ atol) (ext : List Nat) (pbc : List Bool) (hd : ext.length = 3) (hp : pbc.length = 3)
    (hpos : ∀ e ∈ ext, 0 < e) :
    ∃ L g, mkGeom pyrochlore atol ext pbc = .ok L ∧ L.graph = .ok g ∧ g.n = 4 * ext.prod ∧ g.isBipartite = false := by
  obtain ⟨L, h1, h2, -⟩ := C159_pyrochlore atol hatol ext pbc hd hp hpos
  have hnb : pyrochlore.offsets.length = 4 := by simp [pyrochlore]
  have hs : Real.sqrt (((8 : Nat) : ℝ) / (64 : Nat)) = Real.sqrt (1 / 8) := by norm_num
  have hbox : ∀ q : Int, 0 ≤ q → q < 4 → [0, 0, 0, q] ∈ L.basisCoords := by
    intro q h0 h3
    rw [h2.sites, hnb]
    obtain ⟨a, b, c, rfl⟩ := List.length_eq_three.1 hd
    have := hpos a (by simp)
    have := hpos b (by simp)
    have := hpos c (by simp)
    simp
    omega
  have hsite : ∀ q : Int, 0 ≤ q → q < 4 → IsSite 3 pyrochlore.offsets.length [0, 0, 0, q] := by
    intro q h0 h3
    refine ⟨rfl, ?_⟩
    rw [hnb]
    simp [lab]
    omega
  obtain ⟨g, h3, h4, h5⟩ := nearest_triangle pyroForm ext pbc hd hp L (by rw [hs]; exact h2) [0, 0, 0, 0] [0, 0, 0, 1] [0, 0, 0, 2]
    (hbox 0 (by omega) (by omega)) (hbox 1 (by omega) (by omega)) (hbox 2 (by omega) (by omega)) (by decide) (by decide) (by decide)
    (hsite 0 (by omega) (by omega)) (hsite 1 (by omega) (by omega)) (hsite 2 (by omega) (by omega))
    ⟨[0, 0, 0], by decide, by simp [Moved]⟩ ⟨[0, 0, 0], by decide, by simp [Moved]⟩ ⟨[0, 0, 0], by decide, by simp [Moved]⟩
  exact ⟨L, g, h1, h3, by rw [h4, hnb], h5⟩

/-- C259: `FCC(extent, pbc)` with at least two cells along the directions is not bipartite. -/
theorem C259_fcc (atol : ℝ) (hatol : 0 ≤ atol) (ext : List Nat) (pbc : List Bool) (hd : ext.length = 3) (hp : pbc.length = 3)
    (hbig : ∀ e ∈ ext, 2 ≤ e) :
    ∃ L g, mkGeom fcc atol ext pbc = .ok L ∧ L.graph = .ok g ∧ g.n = ext.prod ∧ g.isBipartite = false := by
  obtain ⟨a, b, c, rfl⟩ := List.length_eq_three.1 hd
  have ha := hbig a (by simp)
  have hb := hbig b (by simp)
  have hc := hbig c (by simp)
  obtain ⟨p, q, r, rfl⟩ := List.length_eq_three.1 hp
  obtain ⟨L, h1, h2, -⟩ := C159_fcc atol hatol [a, b, c] [p, q, r] hd hp (fun e he => by have := hbig e he; omega)
    ⟨(a, p), by simp, Or.inr ha⟩
  have hnb : fcc.offsets.length = 1 := by simp [fcc]
  have hbox : ∀ x y : Int, 0 ≤ x → x < 2 → 0 ≤ y → y < 2 → [x, y, 0, 0] ∈ L.basisCoords := by
    intro x y _ _ _ _
    rw [h2.sites, hnb]
    simp
    omega
  have hsite : ∀ x y : Int, IsSite 3 fcc.offsets.length [x, y, 0, 0] := by
    intro x y
    refine ⟨rfl, ?_⟩
    rw [hnb]
    simp [lab]
  obtain ⟨g, h3, h4, h5⟩ := nearest_triangle fccForm [a, b, c] [p, q, r] hd hp L (by convert h2 using 2; norm_num)
    [0, 0, 0, 0] [1, 0, 0, 0] [0, 1, 0, 0]
    (hbox 0 0 (by omega) (by omega) (by omega) (by omega)) (hbox 1 0 (by omega) (by omega) (by omega) (by omega))
    (hbox 0 1 (by omega) (by omega) (by omega) (by omega)) (by decide) (by decide) (by decide)
    (hsite 0 0) (hsite 1 0) (hsite 0 1)
    ⟨[1, 0, 0], by decide, by simp [Moved]⟩ ⟨[-1, 1, 0], by decide, by simp [Moved]⟩ ⟨[0, -1, 0], by decide, by simp [Moved]⟩
  exact ⟨L, g, h1, h3, by rw [h4, hnb, Nat.one_mul], h5⟩

/-- cells of kagome, pyrochlore, honeycomb and diamond, and of the triangular and fcc lattices, with mixed boundaries. -/
example : ((∀ e ∈ [2, 1], 0 < e) ∧ [true, false].length = 2) ∧ ((∀ e ∈ [1, 2, 3], 0 < e) ∧ [true, false, true].length = 3)
    ∧ (∀ e ∈ [2, 3], 2 ≤ e) ∧ (∀ e ∈ [2, 3, 4], 2 ≤ e) := by simp

end

end Verif.Lat
