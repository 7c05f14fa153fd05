import Verif.Model.GraphConn
import Verif.Props.GraphAlgo
import Verif.Props.Graph
import Verif.Props.HamSymmetry

/-! C258: `is_connected` and `is_bipartite`. -/

namespace Verif.Grf
open Verif.Hilbert (Err)

/-! ### specification -/

/-- all edges are between nodes. -/
def EdgesIn (g : Graph) : Prop := ∀ u v c, HasEdge g u v c → (0 ≤ u ∧ u < g.n) ∧ (0 ≤ v ∧ v < g.n)

/-- every edge connects nodes of different colours. -/
def TwoColouring (g : Graph) (col : Int → Bool) : Prop := ∀ u v c, HasEdge g u v c → col u ≠ col v

/-! ### walks -/

theorem hasEdge_symm {g : Graph} {u v c : Int} (h : HasEdge g u v c) : HasEdge g v u c := h.symm

theorem walk_trans {g : Graph} {u v w k l : Nat} (h : Walk g u k v) (h' : Walk g v l w) : Walk g u (k + l) w := by
  induction h' with
  | start => exact h
  | step _ hv he ih => exact .step ih hv he

theorem walk_symm {g : Graph} {u v k : Nat} (hu : u < g.n) (h : Walk g u k v) : Walk g v k u := by
  induction h with
  | start => exact .start
  | @step k w v hw _ he ih =>
    obtain ⟨c, hc⟩ := he
    have h1 : Walk g v 1 w := .step .start (walk_lt g u w k hu hw) ⟨c, hasEdge_symm hc⟩
    have := walk_trans h1 ih
    rwa [Nat.add_comm] at this

theorem walk_colour {g : Graph} {col : Int → Bool} (hc : TwoColouring g col) {u v k : Nat} (h : Walk g u k v) :
    col v = (col u ^^ (k % 2 == 1)) := by
  induction h with
  | start => simp
  | @step k w v _ _ he ih =>
    obtain ⟨c, he⟩ := he
    have h1 := hc _ _ _ he
    have h2 : ((k + 1) % 2 == 1) = !(k % 2 == 1) := by
      rcases Nat.mod_two_eq_zero_or_one k with e | e <;> simp [Nat.add_mod, e]
    rw [h2]
    revert h1 ih
    cases col w <;> cases col v <;> cases col u <;> cases (k % 2 == 1) <;> simp

theorem root_spec (g : Graph) (v : Nat) (hv : v < g.n) : g.root v < g.n ∧ ∃ k, Walk g (g.root v) k v := by
  have hex : ∃ u, (List.range g.n).find? (fun u => (g.distance u v).isSome) = some u := by
    rw [← Option.isSome_iff_exists, List.find?_isSome]
    exact ⟨v, List.mem_range.2 hv, (C170_connected_partial g v v hv).2 ⟨0, .start⟩⟩
  obtain ⟨u, hu⟩ := hex
  have h1 : u < g.n := List.mem_range.1 (List.mem_of_find?_eq_some hu)
  have h2 := List.find?_some hu
  have e : g.root v = u := by simp [Graph.root, hu]
  rw [e]
  exact ⟨h1, (C170_connected_partial g u v h1).1 h2⟩

theorem root_edge (g : Graph) (u v : Nat) (hu : u < g.n) (hv : v < g.n) (he : ∃ c, HasEdge g u v c) : g.root u = g.root v := by
  have e : (List.range g.n).find? (fun r => (g.distance r u).isSome) = (List.range g.n).find? (fun r => (g.distance r v).isSome) := by
    apply List.find?_congr
    intro r hr
    have hr := List.mem_range.1 hr
    rw [Bool.eq_iff_iff, C170_connected_partial g r u hr, C170_connected_partial g r v hr]
    constructor
    · rintro ⟨k, hk⟩; exact ⟨k + 1, .step hk hv he⟩
    · rintro ⟨k, hk⟩
      obtain ⟨c, hc⟩ := he
      exact ⟨k + 1, .step hk hu ⟨c, hasEdge_symm hc⟩⟩
  have hs : ((List.range g.n).find? fun r => (g.distance r v).isSome).isSome := by
    rw [List.find?_isSome]
    exact ⟨v, List.mem_range.2 hv, (C170_connected_partial g v v hv).2 ⟨0, .start⟩⟩
  obtain ⟨r, hr⟩ := Option.isSome_iff_exists.1 hs
  simp [Graph.root, e, hr]

theorem side_colour {g : Graph} {col : Int → Bool} (hc : TwoColouring g col) (v : Nat) (hv : v < g.n) :
    col v = (col (g.root v) ^^ g.side v) := by
  obtain ⟨hr, hw⟩ := root_spec g v hv
  obtain ⟨d, hd⟩ := Option.isSome_iff_exists.1 ((C170_connected_partial g _ v hr).2 hw)
  have := walk_colour hc ((C169_distances g _ v d hr).1 hd).1
  rw [this, Graph.side, hd, Option.getD_some]

/-! ### theorems -/

/-- C258: on a graph with nodes, `is_connected()` is `True` exactly if there is a path between every two nodes. -/
theorem C258_connected (g : Graph) (hn : 0 < g.n) :
    g.isConnected = true ↔ ∀ u v, u < g.n → v < g.n → ∃ k, Walk g u k v := by
  simp only [Graph.isConnected, List.all_eq_true, List.mem_range]
  constructor
  · intro h u v hu hv
    obtain ⟨k, hk⟩ := (C170_connected_partial g 0 u hn).1 (h u hu)
    obtain ⟨l, hl⟩ := (C170_connected_partial g 0 v hn).1 (h v hv)
    exact ⟨k + l, walk_trans (walk_symm hn hk) hl⟩
  · intro h v hv
    exact (C170_connected_partial g 0 v hn).2 (h 0 v hn hv)

/-- C258: on a connected graph every entry of `distances()` is a number of steps below `n_nodes`, and the matrix is symmetric. -/
theorem C258_distances (g : Graph) (h : g.isConnected = true) (u v : Nat) (hu : u < g.n) (hv : v < g.n) :
    ∃ d, d < g.n ∧ g.distance u v = some d ∧ g.distance v u = some d := by
  obtain ⟨k, hk⟩ := (C258_connected g (by omega)).1 h u v hu hv
  obtain ⟨d, hd⟩ := exists_shortest g u v k hk
  refine ⟨d, shortest_lt g u v d hu hd, (C169_distances g u v d hu).2 hd, (C169_distances g v u d hv).2 ⟨walk_symm hu hd.1, ?_⟩⟩
  exact fun j hj => hd.2 j (walk_symm hv hj)

/-- C258: `is_bipartite()` is `True` exactly if the nodes have two colours so that every edge connects different colours. -/
theorem C258_bipartite (g : Graph) (hw : EdgesIn g) : g.isBipartite = true ↔ ∃ col, TwoColouring g col := by
  simp only [Graph.isBipartite, List.all_eq_true, bne_iff_ne]
  constructor
  · intro h
    refine ⟨fun v => g.side v.toNat, fun u v c he => ?_⟩
    rcases he with he | he
    · exact h _ he
    · exact (h _ he).symm
  · rintro ⟨col, hc⟩ ⟨⟨u, v⟩, c⟩ he
    have hE : HasEdge g u v c := .inl he
    obtain ⟨⟨hu0, hu⟩, hv0, hv⟩ := hw u v c hE
    obtain ⟨u, rfl⟩ := Int.eq_ofNat_of_zero_le hu0
    obtain ⟨v, rfl⟩ := Int.eq_ofNat_of_zero_le hv0
    have hu : u < g.n := by exact_mod_cast hu
    have hv : v < g.n := by exact_mod_cast hv
    have h1 := hc _ _ _ hE
    have h2 := side_colour hc u hu
    have h3 := side_colour hc v hv
    rw [root_edge g u v hu hv ⟨c, hE⟩] at h2
    simp only [Int.toNat_natCast]
    intro hs
    rw [hs] at h2
    exact h1 (h2.trans h3.symm)

/-- C258: `is_bipartite()` is `False` exactly if there is a closed walk with an odd number of steps. -/
theorem C258_odd_cycle (g : Graph) (hw : EdgesIn g) :
    g.isBipartite = false ↔ ∃ u k, u < g.n ∧ k % 2 = 1 ∧ Walk g u k u := by
  constructor
  · intro hb
    have : ∃ e ∈ g.es, g.side e.1.1.toNat = g.side e.1.2.toNat := by
      by_contra hcon
      push Not at hcon
      have : g.isBipartite = true := by
        simp only [Graph.isBipartite, List.all_eq_true, bne_iff_ne]
        exact hcon
      rw [hb] at this
      simp at this
    obtain ⟨⟨⟨u, v⟩, c⟩, he, hs⟩ := this
    have hE : HasEdge g u v c := .inl he
    obtain ⟨⟨hu0, hu⟩, hv0, hv⟩ := hw u v c hE
    obtain ⟨u, rfl⟩ := Int.eq_ofNat_of_zero_le hu0
    obtain ⟨v, rfl⟩ := Int.eq_ofNat_of_zero_le hv0
    have hu : u < g.n := by exact_mod_cast hu
    have hv : v < g.n := by exact_mod_cast hv
    simp only [Int.toNat_natCast] at hs
    obtain ⟨hr, hwu⟩ := root_spec g u hu
    obtain ⟨-, hwv⟩ := root_spec g v hv
    have hroot := root_edge g u v hu hv ⟨c, hE⟩
    obtain ⟨d, hd⟩ := Option.isSome_iff_exists.1 ((C170_connected_partial g _ u hr).2 hwu)
    obtain ⟨d', hd'⟩ := Option.isSome_iff_exists.1 ((C170_connected_partial g _ v (hroot ▸ hr)).2 hwv)
    have w1 := ((C169_distances g _ u d hr).1 hd).1
    have w2 := ((C169_distances g _ v d' (hroot ▸ hr)).1 hd').1
    have hp : (d % 2 == 1) = (d' % 2 == 1) := by
      simpa [Graph.side, hd, hd'] using hs
    rw [← hroot] at w2
    refine ⟨g.root u, d + 1 + d', hr, ?_, walk_trans (.step w1 hv ⟨c, hE⟩) (walk_symm hr w2)⟩
    have hp' : d % 2 = 1 ↔ d' % 2 = 1 := by
      rw [Bool.eq_iff_iff] at hp
      simpa using hp
    omega
  · rintro ⟨u, k, -, hk, h⟩
    by_contra hb
    obtain ⟨col, hc⟩ := (C258_bipartite g hw).1 (by simpa using hb)
    have := walk_colour hc h
    rw [hk] at this
    simp at this

/-- C258: graphs that the constructor accepts have their edges between nodes, so that the theorems apply to them. -/
theorem C258_constructor (edges : PyEdges) (n : Option Int) (g : Graph) (h : mkGraph edges n = .ok g) :
    EdgesIn g ∧ (g.isBipartite = true ↔ ∃ col, TwoColouring g col) := by
  have hw := C36_wf edges n g h
  have : EdgesIn g := by
    rintro u v c (he | he)
    · have := hw _ he; exact ⟨this.1, this.2.1⟩
    · have := hw _ he; exact ⟨this.2.1, this.1⟩
  exact ⟨this, C258_bipartite g this⟩

/-- C258: a disjoint union is bipartite exactly if both graphs are, and is not connected if both have nodes. -/
theorem C258_union (g h : Graph) (hg : EdgesIn g) (hh : EdgesIn h) :
    ∃ w, disjointUnion g h = .ok w ∧ EdgesIn w ∧ (w.isBipartite = true ↔ g.isBipartite = true ∧ h.isBipartite = true)
      ∧ (0 < g.n → 0 < h.n → w.isConnected = false) := by
  obtain ⟨w, hw, hn, -, he⟩ := C169_disjoint_union g h
  have hE : EdgesIn w := by
    intro u v c hc
    rw [hn]
    rcases (he u v c).1 hc with hc | hc
    · have := hg u v c hc; push_cast; omega
    · have := hh _ _ c hc; push_cast; omega
  refine ⟨w, hw, hE, ?_, ?_⟩
  · rw [C258_bipartite w hE, C258_bipartite g hg, C258_bipartite h hh]
    constructor
    · rintro ⟨col, hc⟩
      exact ⟨⟨col, fun u v c hu => hc u v c ((he u v c).2 (.inl hu))⟩,
        ⟨fun v => col (v + g.n), fun u v c hu => hc _ _ c ((he _ _ c).2 (.inr (by simpa using hu)))⟩⟩
    · rintro ⟨⟨c1, h1⟩, ⟨c2, h2⟩⟩
      refine ⟨fun v => if v < g.n then c1 v else c2 (v - g.n), fun u v c hu => ?_⟩
      rcases (he u v c).1 hu with hc | hc
      · have := hg u v c hc
        simp only [this.1.2, this.2.2, if_true]
        exact h1 u v c hc
      · have := hh _ _ c hc
        dsimp only
        rw [if_neg (by omega), if_neg (by omega)]
        exact h2 _ _ c hc
  · intro pg ph
    by_contra hcon
    obtain ⟨k, hk⟩ := (C258_connected w (by omega)).1 (by simpa using hcon) 0 g.n (by omega) (by omega)
    have key : ∀ {k v}, Walk w 0 k v → v < g.n := by
      intro k v hk
      induction hk with
      | start => exact pg
      | @step k x v _ _ hx ih =>
        obtain ⟨c, hx⟩ := hx
        rcases (he _ _ c).1 hx with hc | hc
        · have := (hg _ _ c hc).2.2; exact_mod_cast this
        · have := (hh _ _ c hc).1.1; omega
    exact absurd (key hk) (by omega)

section
open Verif.Hilbert Verif.LocalOp Verif.LocalValues Verif.Ham
variable {K : Type} [CommRing K] [DecidableEq K] [Star K] {N : Nat} {cut : Cutoff K}

/-- the graph with the given edges. -/
def ofFin {N : Nat} (edges : List ((Fin N × Fin N) × ℤ)) : Graph :=
  ⟨N, edges.map fun e => (((e.1.1.val : Int), (e.1.2.val : Int)), e.2)⟩

theorem ofFin_edgesIn (edges : List ((Fin N × Fin N) × ℤ)) : EdgesIn (ofFin edges) := by
  have key : ∀ u v c, ((u, v), c) ∈ (ofFin edges).es → (0 ≤ u ∧ u < (N : Int)) ∧ (0 ≤ v ∧ v < (N : Int)) := by
    intro u v c he
    obtain ⟨e, -, h⟩ := List.mem_map.1 he
    simp only [Prod.mk.injEq] at h
    have := e.1.1.isLt
    have := e.1.2.isLt
    omega
  rintro u v c (he | he)
  · exact key u v c he
  · exact (key v u c he).symm

/-- C258: what `Heisenberg` makes of `is_bipartite()`. Every operator it returns, whatever the argument `sign_rule`, is the operator
    without sign rule up to signs of the basis states; `sign_rule=True` is refused exactly on graphs with an odd closed walk. -/
theorem C258_heisenberg (hid : Ideal cut) (edges : List ((Fin N × Fin N) × ℤ)) (J : K) (he : ∀ e ∈ edges, e.1.1 ≠ e.1.2)
    (rule : Option Bool) :
    (heisenberg cut N edges (ofFin edges).isBipartite J rule = .error .valueError
      ↔ rule = some true ∧ ∃ u k, u < N ∧ k % 2 = 1 ∧ Walk (ofFin edges) u k u)
    ∧ ∀ op, heisenberg cut N edges (ofFin edges).isBipartite J rule = .ok op →
      ∃ op' col, heisenberg cut N edges (ofFin edges).isBipartite J (some false) = .ok op'
        ∧ ∀ x x', IsSpins x → IsSpins x' → subSign col x * subSign col x = 1
          ∧ matrixOf (halfSpins N) op x x' = (subSign col x : K) * matrixOf (halfSpins N) op' x x' * (subSign col x' : K) := by
  refine ⟨?_, fun op hop => ?_⟩
  · rw [(C25_heisenberg_sign_rule hid edges _ J rule he).1, C258_odd_cycle _ (ofFin_edgesIn edges)]
    rfl
  · cases hb : (ofFin edges).isBipartite with
    | true =>
      rw [hb] at hop
      by_cases hr : rule = some false
      · subst hr
        refine ⟨op, fun _ => false, hop, fun x x' _ _ => ?_⟩
        simp [subSign]
      · obtain ⟨col, hc⟩ := (C258_bipartite _ (ofFin_edgesIn edges)).1 hb
        obtain ⟨o, op', h1, h2, h3⟩ := C228_sign_rule hid edges J he (fun i => col (i.val : Int))
          (fun e h => hc _ _ e.2 (.inl (List.mem_map.2 ⟨e, h, rfl⟩))) rule hr
        rw [h1] at hop
        cases hop
        exact ⟨op', _, h2, h3⟩
    | false =>
      rw [hb] at hop
      have : heisenberg cut N edges false J (some false) = .ok op := by
        rcases rule with _ | _ | _
        · exact hop
        · exact hop
        · simp [heisenberg] at hop
      exact ⟨op, fun _ => false, this, fun x x' _ _ => by simp [subSign]⟩

end

/-! ### hypotheses -/

/-- a square with a diagonal path, a triangle and their union. -/
def sampleSquare : Graph := ⟨5, [((0, 1), 0), ((1, 2), 0), ((2, 3), 0), ((0, 3), 0), ((3, 4), 1)]⟩

/-- a triangle. -/
def sampleTriangle : Graph := ⟨3, [((0, 1), 0), ((1, 2), 0), ((0, 2), 0)]⟩

theorem edgesIn_of (g : Graph) (h : g.es.all (fun e => decide (0 ≤ e.1.1) && decide (e.1.1 < g.n) && decide (0 ≤ e.1.2) && decide (e.1.2 < g.n)) = true) :
    EdgesIn g := by
  simp only [List.all_eq_true, Bool.and_eq_true, decide_eq_true_eq] at h
  rintro u v c (he | he)
  · have := h _ he; simp only at this; omega
  · have := h _ he; simp only at this; omega

example : EdgesIn sampleSquare ∧ EdgesIn sampleTriangle := ⟨edgesIn_of _ (by decide), edgesIn_of _ (by decide)⟩

example : sampleSquare.isConnected = true ∧ sampleSquare.isBipartite = true ∧ sampleTriangle.isConnected = true
    ∧ sampleTriangle.isBipartite = false := by decide +kernel

example : ∃ w, disjointUnion sampleSquare sampleTriangle = .ok w ∧ w.isConnected = false ∧ w.isBipartite = false :=
  ⟨_, rfl, by decide +kernel, by decide +kernel⟩

example : ∃ g, mkGraph (.seq [.seq [0, 1], .seq [2, 1]]) (some 4) = .ok g ∧ g.isBipartite = true ∧ g.isConnected = false :=
  ⟨_, rfl, by decide +kernel, by decide +kernel⟩

/-- the hypotheses of `C258_heisenberg` hold on a triangle, which is not bipartite, and on a path, which is. -/
example : ∃ e1 e2 : List ((Fin 3 × Fin 3) × ℤ), (∀ e ∈ e1, e.1.1 ≠ e.1.2) ∧ (ofFin e1).isBipartite = false
    ∧ (∀ e ∈ e2, e.1.1 ≠ e.1.2) ∧ (ofFin e2).isBipartite = true ∧ e2 ≠ [] :=
  ⟨[((0, 1), 0), ((1, 2), 0), ((0, 2), 0)], [((0, 1), 0), ((1, 2), 0)], by decide, by decide +kernel, by decide, by decide +kernel,
    by simp⟩

end Verif.Grf
