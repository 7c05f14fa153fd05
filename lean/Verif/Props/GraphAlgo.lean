import Verif.Model.GraphAlgo
import Verif.Props.Group
import Mathlib.Order.Interval.Finset.Nat
import Mathlib.Data.Fintype.Card

/-! C169: automorphisms, distances and unions of graphs; C170: distance of unconnected nodes. -/

namespace Verif.Grf
open Verif.Hilbert (Err)
open Verif.Grp (IsPerm uniqueRows lexLe)

/-- the graph has an edge of colour `c` between `u` and `v`. -/
def HasEdge (g : Graph) (u v c : Int) : Prop := ((u, v), c) ∈ g.es ∨ ((v, u), c) ∈ g.es

/-- the permutation `v ↦ p[v]` maps edges to edges of the same colour, and only edges. -/
def IsAut (g : Graph) (p : List Int) : Prop :=
  IsPerm g.n p ∧ ∀ u v : Nat, u < g.n → v < g.n → ∀ c, HasEdge g u v c ↔ HasEdge g (p.getD u 0) (p.getD v 0) c

/-- a walk of `k` steps along edges. -/
inductive Walk (g : Graph) (u : Nat) : Nat → Nat → Prop
  | start : Walk g u 0 u
  | step {k w v : Nat} : Walk g u k w → v < g.n → (∃ c, HasEdge g w v c) → Walk g u (k + 1) v

theorem range_lexLe (n k : Nat) (p : List Int) (hp : p.Perm ((List.range' k n).map fun (i : Nat) => (i : Int))) :
    lexLe ((List.range' k n).map fun (i : Nat) => (i : Int)) p = true := by
  induction n generalizing k p with
  | zero => simp [lexLe]
  | succ n ih =>
    cases p with
    | nil => simpa using hp.length_eq
    | cons a p =>
      rw [List.range'_succ, List.map_cons] at hp ⊢
      simp only [lexLe, Bool.or_eq_true, Bool.and_eq_true, decide_eq_true_eq]
      have ha : a ∈ ((k : Int) :: (List.range' (k + 1) n).map fun (i : Nat) => (i : Int)) := hp.mem_iff.1 (by simp)
      rcases List.mem_cons.1 ha with h | h
      · right
        refine ⟨h.symm, ih (k + 1) p ?_⟩
        rw [h] at hp
        exact (List.perm_cons _).1 hp
      · left
        obtain ⟨i, hi, rfl⟩ := List.mem_map.1 h
        have := List.mem_range'_1.1 hi
        omega

theorem isAut_id (g : Graph) : IsAut g (Verif.Grp.arange g.n) := by
  refine ⟨Verif.Grp.arange_isPerm g.n, ?_⟩
  intro u v hu hv c
  rw [Verif.Grp.arange_getD _ _ hu, Verif.Grp.arange_getD _ _ hv]

theorem isAut_compose (g : Graph) (p q : List Int) (hp : IsAut g p) (hq : IsAut g q) : IsAut g (Verif.Grp.compose p q) := by
  have hget : ∀ u : Nat, u < g.n → ∃ k : Nat, k < g.n ∧ p.getD u 0 = k ∧ (Verif.Grp.compose p q).getD u 0 = q.getD k 0 := by
    intro u hu
    have hul : u < p.length := by rw [hp.1.1]; exact hu
    have hb := hp.1.2.2 (p.getD u 0) (by
      rw [List.getD_eq_getElem?_getD, List.getElem?_eq_getElem hul]; simp)
    refine ⟨(p.getD u 0).toNat, by omega, by omega, ?_⟩
    simp [Verif.Grp.compose, List.getD_eq_getElem?_getD, List.getElem?_eq_getElem hul]
  refine ⟨?_, ?_⟩
  · refine ⟨by rw [Verif.Grp.compose_length]; exact hp.1.1, ?_, ?_⟩
    · rw [List.nodup_iff_injective_getElem]
      intro i j hij
      have hi : i.1 < g.n := lt_of_lt_of_eq i.2 ((Verif.Grp.compose_length p q).trans hp.1.1)
      have hj : j.1 < g.n := lt_of_lt_of_eq j.2 ((Verif.Grp.compose_length p q).trans hp.1.1)
      obtain ⟨k, hk, e1, e2⟩ := hget i.1 hi
      obtain ⟨l, hl, e3, e4⟩ := hget j.1 hj
      have h1 : q.getD k 0 = q.getD l 0 := by
        rw [← e2, ← e4, List.getD_eq_getElem?_getD, List.getD_eq_getElem?_getD, List.getElem?_eq_getElem i.2, List.getElem?_eq_getElem j.2]
        simpa using hij
      have hkl : k = l := by
        have hk' : k < q.length := by rw [hq.1.1]; exact hk
        have hl' : l < q.length := by rw [hq.1.1]; exact hl
        rw [List.getD_eq_getElem?_getD, List.getD_eq_getElem?_getD, List.getElem?_eq_getElem hk', List.getElem?_eq_getElem hl'] at h1
        exact (List.Nodup.getElem_inj_iff hq.1.2.1).1 (by simpa using h1)
      have hi' : i.1 < p.length := by rw [hp.1.1]; exact hi
      have hj' : j.1 < p.length := by rw [hp.1.1]; exact hj
      have h2 : p.getD i.1 0 = p.getD j.1 0 := by rw [e1, e3, hkl]
      rw [List.getD_eq_getElem?_getD, List.getD_eq_getElem?_getD, List.getElem?_eq_getElem hi', List.getElem?_eq_getElem hj'] at h2
      exact Fin.ext ((List.Nodup.getElem_inj_iff hp.1.2.1).1 (by simpa using h2))
    · intro x hx
      obtain ⟨i, hi, rfl⟩ := List.mem_iff_getElem.1 hx
      have hi' : i < g.n := by rw [Verif.Grp.compose_length, hp.1.1] at hi; exact hi
      obtain ⟨k, hk, _, e2⟩ := hget i hi'
      have hk' : k < q.length := by rw [hq.1.1]; exact hk
      rw [List.getD_eq_getElem?_getD, List.getElem?_eq_getElem hi, List.getD_eq_getElem?_getD, List.getElem?_eq_getElem hk'] at e2
      simp only [Option.getD_some] at e2
      rw [e2]
      exact hq.1.2.2 _ (List.getElem_mem hk')
  · intro u v hu hv c
    obtain ⟨k, hk, e1, e2⟩ := hget u hu
    obtain ⟨l, hl, e3, e4⟩ := hget v hv
    rw [hp.2 u v hu hv c, e1, e3, hq.2 k l hk hl c, e2, e4]

/-- C169: if igraph finds the automorphisms (in any order, any number of times), `automorphisms()` lists each of them exactly once, the
    identity first; they form a group, whose inverses and product table exist. -/
theorem C169_automorphisms (g : Graph) (found : List (List Int)) (hfound : ∀ p, p ∈ found ↔ IsAut g p) :
    (automorphisms found).Nodup ∧ (∀ p, p ∈ automorphisms found ↔ IsAut g p) ∧
    (automorphisms found).head? = some (Verif.Grp.arange g.n) ∧
    (∀ p ∈ automorphisms found, ∀ q ∈ automorphisms found, ∃ r ∈ automorphisms found, Verif.Grp.permProd p q = some (.ok r)) ∧
    (∃ inv, Verif.Grp.inverse (automorphisms found) = .ok inv) ∧ ∃ T, Verif.Grp.productTable (automorphisms found) = .ok T := by
  have hmem : ∀ p, p ∈ automorphisms found ↔ IsAut g p := fun p => (Verif.Grp.mem_uniqueRows _ _).trans (hfound p)
  have hperm : ∀ p ∈ automorphisms found, IsPerm g.n p := fun p hp => ((hmem p).1 hp).1
  have hclosed : ∀ p ∈ automorphisms found, ∀ q ∈ automorphisms found, ∃ r ∈ automorphisms found, Verif.Grp.permProd p q = some (.ok r) := by
    intro p hp q hq
    exact ⟨_, (hmem _).2 (isAut_compose g p q ((hmem p).1 hp) ((hmem q).1 hq)),
      Verif.Grp.permProd_compose g.n p q (hperm p hp) (hperm q hq)⟩
  refine ⟨Verif.Grp.uniqueRows_nodup _, hmem, ?_, hclosed, Verif.Grp.C39_closed g.n _ hperm hclosed⟩
  have hid := (hmem _).2 (isAut_id g)
  have hsort : (automorphisms found).Pairwise fun a b => lexLe a b = true :=
    Verif.Grp.sortBy_pairwise Verif.Grp.lexLe_trans Verif.Grp.lexLe_total _
  cases h : automorphisms found with
  | nil => rw [h] at hid; simp at hid
  | cons a l =>
    rw [h] at hid hsort
    have ha : IsPerm g.n a := hperm a (by rw [h]; simp)
    have h1 : lexLe (Verif.Grp.arange g.n) a = true := by
      have := range_lexLe g.n 0 a (by
        have := Verif.Grp.isPerm_perm g.n a ha
        rwa [Verif.Grp.arange, List.range_eq_range'] at this)
      rwa [Verif.Grp.arange, List.range_eq_range']
    rcases List.mem_cons.1 hid with e | e
    · simp [e]
    · have h2 := (List.pairwise_cons.1 hsort).1 _ e
      simp [Verif.Grp.lexLe_antisymm _ _ h2 h1]

theorem adjacent_iff (g : Graph) (u v : Nat) : g.adjacent u v = true ↔ ∃ c, HasEdge g u v c := by
  simp only [Graph.adjacent, List.any_eq_true, Bool.or_eq_true, Bool.and_eq_true, decide_eq_true_eq, HasEdge]
  constructor
  · rintro ⟨⟨⟨a, b⟩, c⟩, he, ⟨h1, h2⟩ | ⟨h1, h2⟩⟩
    · exact ⟨c, .inl (by simp only at h1 h2; rw [← h1, ← h2]; exact he)⟩
    · exact ⟨c, .inr (by simp only at h1 h2; rw [← h1, ← h2]; exact he)⟩
  · rintro ⟨c, h | h⟩
    · exact ⟨_, h, .inl ⟨rfl, rfl⟩⟩
    · exact ⟨_, h, .inr ⟨rfl, rfl⟩⟩

theorem reach_iff (g : Graph) (u v k : Nat) (hu : u < g.n) : v ∈ g.reach u k ↔ ∃ j, j ≤ k ∧ Walk g u j v := by
  induction k generalizing v with
  | zero =>
    simp only [Graph.reach, List.mem_singleton]
    constructor
    · rintro rfl; exact ⟨0, le_rfl, .start⟩
    · rintro ⟨j, hj, h⟩
      obtain rfl : j = 0 := by omega
      cases h; rfl
  | succ k ih =>
    simp only [Graph.reach, List.mem_filter, List.mem_range, Bool.or_eq_true, List.contains_eq_mem, decide_eq_true_eq, List.any_eq_true]
    constructor
    · rintro ⟨hv, h | ⟨w, hw, ha⟩⟩
      · obtain ⟨j, hj, h⟩ := (ih v).1 h
        exact ⟨j, by omega, h⟩
      · obtain ⟨j, hj, h⟩ := (ih w).1 hw
        exact ⟨j + 1, by omega, .step h hv ((adjacent_iff g w v).1 ha)⟩
    · rintro ⟨j, hj, h⟩
      cases h with
      | start => exact ⟨hu, .inl ((ih u).2 ⟨0, by omega, .start⟩)⟩
      | step h hv ha =>
        rename_i i w
        exact ⟨hv, .inr ⟨w, (ih w).2 ⟨i, by omega, h⟩, (adjacent_iff g w v).2 ha⟩⟩

/-- the number of steps of a shortest walk. -/
def Shortest (g : Graph) (u v d : Nat) : Prop := Walk g u d v ∧ ∀ j, Walk g u j v → d ≤ j

theorem walk_lt (g : Graph) (u v k : Nat) (hu : u < g.n) (h : Walk g u k v) : v < g.n := by
  cases h with
  | start => exact hu
  | step _ hv _ => exact hv

/-- on the way to a node at distance `d` there are nodes at all smaller distances. -/
theorem shortest_prefix (g : Graph) (u v d : Nat) (h : Shortest g u v d) (i : Nat) (hi : i ≤ d) : ∃ w, Shortest g u w i := by
  induction d generalizing v with
  | zero => obtain rfl : i = 0 := by omega
            exact ⟨v, h⟩
  | succ d ih =>
    by_cases hid : i = d + 1
    · rw [hid]; exact ⟨v, h⟩
    · obtain ⟨hw, hmin⟩ := h
      cases hw with
      | step hw hv ha =>
        rename_i w
        refine ih w ⟨hw, fun j hj => ?_⟩ (by omega)
        have := hmin (j + 1) (.step hj hv ha)
        omega

theorem shortest_lt (g : Graph) (u v d : Nat) (hu : u < g.n) (h : Shortest g u v d) : d < g.n := by
  choose f hf using fun i : Fin (d + 1) => shortest_prefix g u v d h i.1 (by omega)
  have hlt : ∀ i, f i < g.n := fun i => walk_lt g u _ _ hu (hf i).1
  have hinj : Function.Injective fun i : Fin (d + 1) => (⟨f i, hlt i⟩ : Fin g.n) := by
    intro i j hij
    have hij' : f i = f j := congrArg Fin.val hij
    have h1 := hf i
    have h2 := hf j
    rw [← hij'] at h2
    exact Fin.ext (le_antisymm (h1.2 _ h2.1) (h2.2 _ h1.1))
  have := Fintype.card_le_of_injective _ hinj
  simp only [Fintype.card_fin] at this
  omega

theorem exists_shortest (g : Graph) (u v k : Nat) (h : Walk g u k v) : ∃ d, Shortest g u v d := by
  classical
  have hex : ∃ j, Walk g u j v := ⟨k, h⟩
  exact ⟨Nat.find hex, Nat.find_spec hex, fun j hj => Nat.find_min' hex hj⟩

/-- C169: `distances()` gives the number of steps of a shortest path between connected nodes. -/
theorem C169_distances (g : Graph) (u v d : Nat) (hu : u < g.n) :
    g.distance u v = some d ↔ (Walk g u d v ∧ ∀ j, Walk g u j v → d ≤ j) := by
  have key : ∀ k, (g.reach u k).contains v = true ↔ ∃ j, j ≤ k ∧ Walk g u j v := fun k => by
    rw [List.contains_eq_mem, decide_eq_true_eq]; exact reach_iff g u v k hu
  constructor
  · intro h
    unfold Graph.distance at h
    obtain ⟨hp, as, bs, hl, hbefore⟩ := List.find?_eq_some_iff_append.1 h
    obtain ⟨j, hj, hw⟩ := (key d).1 hp
    have hlt : ∀ i, i < d → ¬ ((g.reach u i).contains v = true) := by
      intro i hi
      have hd : d = as.length := by
        have e1 := congrArg (fun l => l[as.length]?) hl
        rw [List.getElem?_append_right le_rfl] at e1
        simp only [Nat.sub_self, List.getElem?_cons_zero, List.getElem?_range] at e1
        obtain ⟨h1, h2⟩ := List.getElem?_eq_some_iff.1 e1
        simpa using h2.symm
      have hi' : i ∈ as := by
        have e1 := congrArg (fun l => l[i]?) hl
        rw [List.getElem?_append_left (by omega)] at e1
        have hn : i < g.n := by
          have := congrArg List.length hl
          simp at this
          omega
        rw [List.getElem?_range hn] at e1
        exact List.mem_of_getElem? e1.symm
      have := hbefore i hi'
      simpa using this
    have hmin : ∀ i, Walk g u i v → d ≤ i := by
      intro i hi
      by_contra hc
      exact hlt i (by omega) ((key i).2 ⟨i, le_rfl, hi⟩)
    have : j = d := le_antisymm hj (hmin j hw)
    exact ⟨this ▸ hw, hmin⟩
  · intro h
    have hdn := shortest_lt g u v d hu h
    unfold Graph.distance
    rw [List.find?_eq_some_iff_append]
    refine ⟨(key d).2 ⟨d, le_rfl, h.1⟩, List.range d, List.range' (d + 1) (g.n - d - 1), ?_, ?_⟩
    · have e : List.range g.n = List.range' 0 d ++ List.range' d (g.n - d) := by
        have := List.range'_append_1 (s := 0) (m := d) (n := g.n - d)
        rw [Nat.zero_add] at this
        rw [List.range_eq_range', this]
        congr 1; omega
      rw [e, List.range_eq_range', show g.n - d = (g.n - d - 1) + 1 by omega, List.range'_succ]
      congr 2
    · intro i hi
      have hi' := List.mem_range.1 hi
      simp only [Bool.not_eq_true', Bool.eq_false_iff]
      intro hc
      obtain ⟨j, hj, hw⟩ := (key i).1 hc
      have := h.2 j hw
      omega

/-- C170, refuted clause: "the distance between unconnected nodes (no path exists between them) is set to -1".  It is `inf` for all of them. -/
theorem C170_unconnected_refuted (g : Graph) (u v : Nat) (hu : u < g.n) (h : ¬ ∃ k, Walk g u k v) : g.distance u v = none := by
  cases hd : g.distance u v with
  | none => rfl
  | some d => exact absurd ⟨d, ((C169_distances g u v d hu).1 hd).1⟩ h

/-- C170, the part that holds: a distance is given exactly to the nodes that can be reached.  Missing: the value for the others. -/
theorem C170_connected_partial (g : Graph) (u v : Nat) (hu : u < g.n) : (g.distance u v).isSome = true ↔ ∃ k, Walk g u k v := by
  constructor
  · intro h
    obtain ⟨d, hd⟩ := Option.isSome_iff_exists.1 h
    exact ⟨d, ((C169_distances g u v d hu).1 hd).1⟩
  · rintro ⟨k, hk⟩
    obtain ⟨d, hd⟩ := exists_shortest g u v k hk
    rw [(C169_distances g u v d hu).2 hd]; rfl

theorem intColors_map (l : List Int) : intColors (l.map some) = some l := by
  induction l with
  | nil => rfl
  | cons a l ih => simp [intColors, ih]

/-- C169: the graph made from `to_igraph()` is the graph. -/
theorem C169_round_trip (g : Graph) : fromIgraph g.toIgraph = .ok g := by
  have h : intColors (g.es.map fun e => some e.2) = some (g.es.map Prod.snd) := by
    have := intColors_map (g.es.map Prod.snd)
    simpa [List.map_map, Function.comp_def] using this
  simp only [fromIgraph, Graph.toIgraph, Bool.false_eq_true, if_false, h]
  congr 2
  rw [List.zip_map']
  simp

/-- C169: the disjoint union has the nodes of the first graph followed by those of the second, and exactly their edges with their colours. -/
theorem C169_disjoint_union (g h : Graph) :
    ∃ w, disjointUnion g h = .ok w ∧ w.n = g.n + h.n ∧ w.es.length = g.es.length + h.es.length ∧
      ∀ u v c, HasEdge w u v c ↔ HasEdge g u v c ∨ HasEdge h (u - g.n) (v - g.n) c := by
  have hc : intColors ((g.es.map fun e => some e.2) ++ (h.es.map fun e => some e.2)) = some (g.es.map Prod.snd ++ h.es.map Prod.snd) := by
    have := intColors_map (g.es.map Prod.snd ++ h.es.map Prod.snd)
    simpa [List.map_map, Function.comp_def] using this
  have hw : disjointUnion g h = .ok ⟨g.n + h.n, g.es ++ h.es.map fun e => ((e.1.1 + (g.n : Int), e.1.2 + (g.n : Int)), e.2)⟩ := by
    simp only [disjointUnion, fromIgraph, Graph.toIgraph, Option.getD_some, Bool.false_eq_true, if_false, hc]
    congr 2
    rw [List.zip_append (by simp)]
    congr 1
    · rw [List.zip_map']; simp
    · rw [List.map_map, List.zip_map']
      rfl
  refine ⟨_, hw, rfl, by simp, ?_⟩
  intro u v c
  simp only [HasEdge, List.mem_append, List.mem_map, Prod.mk.injEq]
  constructor
  · rintro ((h1 | ⟨e, he, ⟨h2, h3⟩, h4⟩) | (h1 | ⟨e, he, ⟨h2, h3⟩, h4⟩))
    · exact .inl (.inl h1)
    · right; left
      have : e = ((u - (g.n : Int), v - (g.n : Int)), c) := by
        rw [← h2, ← h3, ← h4]; simp
      rw [← this]; exact he
    · exact .inl (.inr h1)
    · right; right
      have : e = ((v - (g.n : Int), u - (g.n : Int)), c) := by
        rw [← h2, ← h3, ← h4]; simp
      rw [← this]; exact he
  · rintro ((h1 | h1) | (h1 | h1))
    · exact .inl (.inl h1)
    · exact .inr (.inl h1)
    · exact .inl (.inr ⟨_, h1, ⟨by simp, by simp⟩, rfl⟩)
    · exact .inr (.inr ⟨_, h1, ⟨by simp, by simp⟩, rfl⟩)

/-- C169: directed graphs and graphs with a colour that is not an integer are refused with a ValueError; without colours all edges get 0. -/
theorem C169_from_igraph (ig : IGraph) :
    (ig.directed = true → fromIgraph ig = .error .valueError) ∧
    (∀ cs, ig.color = some cs → none ∈ cs → fromIgraph ig = .error .valueError) ∧
    (ig.directed = false → ig.color = none → ∃ g, fromIgraph ig = .ok g ∧ g.n = ig.n ∧ ∀ u v c, ((u, v), c) ∈ g.es ↔ (u, v) ∈ ig.es ∧ c = 0) := by
  refine ⟨fun h => by simp [fromIgraph, h], ?_, ?_⟩
  · intro cs h1 h2
    have : intColors cs = none := by
      clear h1
      induction cs with
      | nil => simp at h2
      | cons a cs ih =>
        cases a with
        | none => rfl
        | some a => simp [intColors, ih (by simpa using h2)]
    unfold fromIgraph
    split
    · rfl
    · simp [h1, this]
  · intro h1 h2
    refine ⟨⟨ig.n, ig.es.map fun e => (e, 0)⟩, by simp [fromIgraph, h1, h2], rfl, ?_⟩
    intro u v c
    simp only [List.mem_map, Prod.mk.injEq]
    constructor
    · rintro ⟨e, he, h3, h4⟩
      exact ⟨h3 ▸ he, h4.symm⟩
    · rintro ⟨he, h3⟩
      exact ⟨_, he, rfl, h3.symm⟩

/-- a path of three nodes with edges of different colours. -/
def samplePath : Graph := ⟨4, [((0, 1), 0), ((1, 2), 1)]⟩

/-- the hypothesis of `C169_automorphisms` for one edge between two nodes: igraph finds two automorphisms. -/
theorem pair_automorphisms : let g : Graph := ⟨2, [((0, 1), 5)]⟩
    ∀ p, p ∈ ([[1, 0], [0, 1], [1, 0]] : List (List Int)) ↔ IsAut g p := by
  intro g p
  constructor
  · intro hp
    have hp' : p = [1, 0] ∨ p = [0, 1] := by
      simp only [List.mem_cons, List.not_mem_nil, or_false] at hp
      tauto
    rcases hp' with rfl | rfl
    · refine ⟨⟨rfl, by decide, by decide⟩, ?_⟩
      intro u v hu hv c
      have hu' : u < 2 := hu
      have hv' : v < 2 := hv
      have : (u = 0 ∨ u = 1) ∧ (v = 0 ∨ v = 1) := by omega
      rcases this with ⟨rfl | rfl, rfl | rfl⟩ <;> simp [HasEdge, g]
    · exact isAut_id g
  · rintro ⟨⟨h1, h2, h3⟩, -⟩
    match p, h1, h2, h3 with
    | [a, b], _, h2, h3 =>
      have ha := h3 a (by simp)
      have hb := h3 b (by simp)
      simp at h2
      have : a = 0 ∧ b = 1 ∨ a = 1 ∧ b = 0 := by
        simp only [g] at ha hb; omega
      rcases this with ⟨rfl, rfl⟩ | ⟨rfl, rfl⟩ <;> simp

example := C169_automorphisms ⟨2, [((0, 1), 5)]⟩ [[1, 0], [0, 1], [1, 0]] pair_automorphisms

example : automorphisms [[1, 0], [0, 1], [1, 0]] = [[0, 1], [1, 0]] := by decide +kernel

example : samplePath.distance 0 2 = some 2 ∧ samplePath.distance 0 3 = none ∧ samplePath.distance 1 1 = some 0 := by decide +kernel

/-- node 3 cannot be reached. -/
example : ¬ ∃ k, Walk samplePath 0 k 3 := by
  intro h
  have := (C170_connected_partial samplePath 0 3 (by decide)).2 h
  revert this
  decide +kernel

example : disjointUnion samplePath ⟨2, [((0, 1), 7)]⟩ = .ok ⟨6, [((0, 1), 0), ((1, 2), 1), ((4, 5), 7)]⟩ := by decide +kernel

example : fromIgraph ⟨false, 2, [(0, 1)], some [none]⟩ = .error .valueError ∧ fromIgraph ⟨true, 2, [(0, 1)], none⟩ = .error .valueError ∧
    fromIgraph ⟨false, 2, [(0, 1)], none⟩ = .ok ⟨2, [((0, 1), 0)]⟩ := by decide +kernel

end Verif.Grf
