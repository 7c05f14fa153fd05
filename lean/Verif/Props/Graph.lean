import Verif.Model.Graph
import Mathlib.Data.List.Basic
import Mathlib.Order.Lattice
import Mathlib.Order.MinMax
import Mathlib.Algebra.Order.Group.Int

/-! C36: Graph reports the edges and colours it was given. -/

set_option linter.unusedVariables false

namespace Verif.Grf
open Verif.Hilbert (Err)

/-- an undirected edge as an ordered pair of ends, smaller first. -/
def ordered (v w : Int) : Int × Int := if v ≤ w then (v, w) else (w, v)

theorem minmax_ordered (v w : Int) : (min v w, max v w) = ordered v w := by
  unfold ordered
  split_ifs with h
  · rw [min_eq_left h, max_eq_right h]
  · rw [min_eq_right (by omega), max_eq_left (by omega)]

/-- a vertex number is acceptable. -/
def Vertex (n v : Int) : Prop := 0 ≤ v ∧ v < n

theorem addEdges_ok (n : Int) (hn : 0 ≤ n) (es : List ((Int × Int) × Int))
    (h : ∀ e ∈ es, Vertex n e.1.1 ∧ Vertex n e.1.2) :
    addEdges n es = .ok ⟨n.toNat, es.map fun e => (ordered e.1.1 e.1.2, e.2)⟩ := by
  unfold addEdges
  rw [if_neg (by omega), if_pos]
  · simp only [minmax_ordered]
  · rw [List.all_eq_true]
    intro e he
    obtain ⟨⟨h1, h2⟩, h3, h4⟩ := h e he
    simp [h1, h2, h3, h4]

theorem allLen_map (k : Nat) (es : List (List Int)) (h : ∀ e ∈ es, e.length = k) :
    allLen k (es.map .seq) = .ok true := by
  induction es with
  | nil => rfl
  | cons e r ih =>
    rw [List.map_cons, allLen]
    simp only [PyEdge.len]
    rw [if_pos (h e (by simp)), ih fun e he => h e (List.mem_cons_of_mem _ he)]

theorem clean2 (es : List (Int × Int)) :
    cleanEdges (.seq (es.map fun e => .seq [e.1, e.2])) = .ok (es.map fun e => (e, 0)) := by
  cases es with
  | nil => rfl
  | cons e r =>
    have h := allLen_map 2 ((e :: r).map fun e => [e.1, e.2]) (by
      intro f hf
      obtain ⟨_, _, rfl⟩ := List.mem_map.1 hf
      rfl)
    rw [List.map_map] at h
    rw [List.map_cons, cleanEdges, cleanNonempty]
    rw [if_neg (by simp)]
    simp only [List.length_cons, List.length_nil, Nat.zero_add, Nat.reduceAdd]
    simp only [Function.comp_def, List.map_cons] at h
    rw [h]
    simp only [if_true, List.map_cons, List.map_map, Except.ok.injEq, List.cons.injEq]
    exact ⟨rfl, rfl⟩

theorem clean3 (es : List ((Int × Int) × Int)) :
    cleanEdges (.seq (es.map fun e => .seq [e.1.1, e.1.2, e.2])) = .ok es := by
  cases es with
  | nil => rfl
  | cons e r =>
    have h := allLen_map 3 ((e :: r).map fun e => [e.1.1, e.1.2, e.2]) (by
      intro f hf
      obtain ⟨_, _, rfl⟩ := List.mem_map.1 hf
      rfl)
    rw [List.map_map] at h
    rw [List.map_cons, cleanEdges, cleanNonempty]
    rw [if_neg (by simp)]
    simp only [List.length_cons, List.length_nil, Nat.zero_add, Nat.reduceAdd]
    simp only [Function.comp_def, List.map_cons] at h
    rw [h]
    simp only [show ¬(3 = 2) by omega, if_false, List.map_cons, List.map_map, Except.ok.injEq, List.cons.injEq]
    refine ⟨rfl, ?_⟩
    conv_rhs => rw [← List.map_id r]
    rfl

/-- the least number of nodes that covers all ends: what is used when `n_nodes` is absent. -/
theorem defaultNodes_spec (es : List ((Int × Int) × Int)) (hpos : ∀ e ∈ es, 0 ≤ e.1.1 ∧ 0 ≤ e.1.2) :
    0 ≤ defaultNodes es ∧ (∀ e ∈ es, Vertex (defaultNodes es) e.1.1 ∧ Vertex (defaultNodes es) e.1.2)
    ∧ ∀ n : Int, 0 ≤ n → (∀ e ∈ es, Vertex n e.1.1 ∧ Vertex n e.1.2) → defaultNodes es ≤ n := by
  cases es with
  | nil => simp [defaultNodes]
  | cons e r =>
    have key : ∀ (r : List ((Int × Int) × Int)) (m : Int),
        m ≤ r.foldl (fun m f => max m (max f.1.1 f.1.2)) m
        ∧ (∀ f ∈ r, f.1.1 ≤ r.foldl (fun m f => max m (max f.1.1 f.1.2)) m
          ∧ f.1.2 ≤ r.foldl (fun m f => max m (max f.1.1 f.1.2)) m)
        ∧ ∀ n, m < n → (∀ f ∈ r, f.1.1 < n ∧ f.1.2 < n) → r.foldl (fun m f => max m (max f.1.1 f.1.2)) m < n := by
      intro r
      induction r with
      | nil => intro m; simp
      | cons f r ih =>
        intro m
        obtain ⟨h1, h2, h3⟩ := ih (max m (max f.1.1 f.1.2))
        rw [List.foldl_cons]
        refine ⟨by omega, ?_, ?_⟩
        · intro g hg
          rcases List.mem_cons.1 hg with rfl | hg
          · omega
          · exact h2 g hg
        · intro n hm hn
          apply h3 n
          · have := hn f (by simp)
            omega
          · intro g hg
            exact hn g (List.mem_cons_of_mem _ hg)
    obtain ⟨h1, h2, h3⟩ := key r (max e.1.1 e.1.2)
    rw [defaultNodes]
    have he := hpos e (by simp)
    refine ⟨by omega, ?_, ?_⟩
    · intro f hf
      have hf0 := hpos f hf
      unfold Vertex
      rcases List.mem_cons.1 hf with rfl | hf
      · omega
      · have := h2 f hf; omega
    · intro n hn hv
      have := h3 n (by have := hv e (by simp); unfold Vertex at this; omega)
        (fun f hf => by have := hv f (List.mem_cons_of_mem _ hf); unfold Vertex at this; omega)
      omega

/-- coloured edges: `Graph([(v, w, c), …], n_nodes)` keeps every edge with its colour in the given order; `n_nodes` defaults to
    the least number covering all ends. -/
theorem C36_coloured (es : List ((Int × Int) × Int)) (n : Option Int)
    (hpos : ∀ e ∈ es, 0 ≤ e.1.1 ∧ 0 ≤ e.1.2)
    (hn : ∀ k, n = some k → 0 ≤ k ∧ ∀ e ∈ es, Vertex k e.1.1 ∧ Vertex k e.1.2) :
    ∃ g, mkGraph (.seq (es.map fun e => .seq [e.1.1, e.1.2, e.2])) n = .ok g
      ∧ (g.n : Int) = n.getD (defaultNodes es)
      ∧ g.nEdges = es.length
      ∧ g.edgeColors = es.map Prod.snd
      ∧ g.edges .none false none = .ok (es.map fun e => [(ordered e.1.1 e.1.2).1, (ordered e.1.1 e.1.2).2])
      ∧ g.edges .none true none = .ok (es.map fun e => [(ordered e.1.1 e.1.2).1, (ordered e.1.1 e.1.2).2, e.2])
      ∧ (∀ c, g.edges .none false (some c) = .ok ((es.filter fun e => decide (e.2 = c)).map fun e =>
        [(ordered e.1.1 e.1.2).1, (ordered e.1.1 e.1.2).2]))
      ∧ (∀ c, g.edges .none true (some c) = .ok ((es.filter fun e => decide (e.2 = c)).map fun e =>
        [(ordered e.1.1 e.1.2).1, (ordered e.1.1 e.1.2).2, e.2])) := by
  obtain ⟨d1, d2, _⟩ := defaultNodes_spec es hpos
  have hk : 0 ≤ n.getD (defaultNodes es) ∧ ∀ e ∈ es, Vertex (n.getD (defaultNodes es)) e.1.1 ∧ Vertex (n.getD (defaultNodes es)) e.1.2 := by
    cases n with
    | none => exact ⟨d1, d2⟩
    | some k => exact hn k rfl
  have hr : mkGraph (.seq (es.map fun e => .seq [e.1.1, e.1.2, e.2])) n
      = .ok ⟨(n.getD (defaultNodes es)).toNat, es.map fun e => (ordered e.1.1 e.1.2, e.2)⟩ := by
    unfold mkGraph
    rw [clean3]
    exact addEdges_ok _ hk.1 es hk.2
  have hf : ∀ c : Int, (es.map fun e => (ordered e.1.1 e.1.2, e.2)).filter (fun e => decide (e.2 = c))
      = (es.filter fun e => decide (e.2 = c)).map fun e => (ordered e.1.1 e.1.2, e.2) := by
    intro c
    rw [List.filter_map]
    rfl
  refine ⟨_, hr, ?_, ?_, ?_, ?_, ?_, ?_, ?_⟩
  · exact Int.toNat_of_nonneg hk.1
  · simp [Graph.nEdges]
  · unfold Graph.edgeColors Graph.nEdges
    cases es with
    | nil => rfl
    | cons e r => simp [Function.comp_def]
  · simp [Graph.edges, Graph.select]
  · simp [Graph.edges, Graph.select]
  · intro c
    simp [Graph.edges, Graph.select, hf, Function.comp_def]
  · intro c
    simp [Graph.edges, Graph.select, hf, Function.comp_def]

example := C36_coloured [((0, 1), 4), ((2, 1), 5)] (some 4) (by decide) (by rintro k ⟨⟩; unfold Vertex; decide)

/-- the deprecated `color` argument: a bool says whether colours are returned, an integer selects a colour; anything else is a
    TypeError. -/
theorem C36_color_argument (es : List ((Int × Int) × Int)) (n : Option Int) (g : Graph)
    (h : mkGraph (.seq (es.map fun e => .seq [e.1.1, e.1.2, e.2])) n = .ok g) :
    (∀ rc, g.edges (.bool true) rc none
      = .ok (es.map fun e => [(ordered e.1.1 e.1.2).1, (ordered e.1.1 e.1.2).2, e.2]))
    ∧ (∀ rc, g.edges (.bool false) rc none
      = .ok (es.map fun e => [(ordered e.1.1 e.1.2).1, (ordered e.1.1 e.1.2).2]))
    ∧ (∀ c fc, g.edges (.int c) false fc = .ok ((es.filter fun e => decide (e.2 = c)).map fun e =>
        [(ordered e.1.1 e.1.2).1, (ordered e.1.1 e.1.2).2]))
    ∧ ∀ rc fc, g.edges .other rc fc = .error .typeError := by
  have hg : g.es = es.map fun e => (ordered e.1.1 e.1.2, e.2) := by
    unfold mkGraph at h
    rw [clean3] at h
    simp only at h
    unfold addEdges at h
    split_ifs at h
    simp only [Except.ok.injEq] at h
    subst h
    simp only [minmax_ordered]
  have hf : ∀ c : Int, (es.map fun e => (ordered e.1.1 e.1.2, e.2)).filter (fun e => decide (e.2 = c))
      = (es.filter fun e => decide (e.2 = c)).map fun e => (ordered e.1.1 e.1.2, e.2) := by
    intro c
    rw [List.filter_map]
    rfl
  refine ⟨?_, ?_, ?_, fun _ _ => rfl⟩
  · intro rc; simp [Graph.edges, Graph.select, hg]
  · intro rc; simp [Graph.edges, Graph.select, hg]
  · intro c fc; simp [Graph.edges, Graph.select, hg, hf, Function.comp_def]

example := C36_color_argument [((0, 1), 4), ((2, 1), 5)] (some 4) _ rfl

/-- edges without colours are the edges of colour 0. -/
theorem C36_uncoloured (es : List (Int × Int)) (n : Option Int) :
    mkGraph (.seq (es.map fun e => .seq [e.1, e.2])) n
      = mkGraph (.seq (es.map fun e => .seq [e.1, e.2, 0])) n := by
  have h := clean3 (es.map fun e => (e, (0 : Int)))
  rw [List.map_map] at h
  unfold mkGraph
  rw [clean2]
  have h' : (es.map ((fun e : (Int × Int) × Int => PyEdge.seq [e.1.1, e.1.2, e.2]) ∘ fun e => (e, (0 : Int))))
      = es.map fun e => PyEdge.seq [e.1, e.2, 0] := rfl
  rw [h'] at h
  rw [h]

theorem allLen_spec (k : Nat) (es : List PyEdge) (h : allLen k es = .ok true) :
    ∀ e ∈ es, ∃ l, e = .seq l ∧ l.length = k := by
  induction es with
  | nil => simp
  | cons e r ih =>
    rw [allLen] at h
    cases e with
    | notSeq => simp [PyEdge.len] at h
    | seq l =>
      simp only [PyEdge.len] at h
      split_ifs at h with hl
      · intro f hf
        rcases List.mem_cons.1 hf with rfl | hf
        · exact ⟨l, rfl, hl⟩
        · exact ih h f hf
      · simp at h

/-- what is accepted: only sequences of edges that are all pairs or all triples, with ends that are vertices. -/
theorem C36_accepts (edges : PyEdges) (n : Option Int) (g : Graph) (h : mkGraph edges n = .ok g) :
    ∃ es : List ((Int × Int) × Int),
      (edges = .seq (es.map fun e => .seq [e.1.1, e.1.2, e.2])
        ∨ (edges = .seq (es.map fun e => .seq [e.1.1, e.1.2]) ∧ ∀ e ∈ es, e.2 = 0))
      ∧ (∀ e ∈ es, Vertex g.n e.1.1 ∧ Vertex g.n e.1.2) ∧ (g.n : Int) = n.getD (defaultNodes es) := by
  unfold mkGraph at h
  have hclean : ∀ es, cleanEdges edges = .ok es → (edges = .seq (es.map fun e => .seq [e.1.1, e.1.2, e.2])
        ∨ (edges = .seq (es.map fun e => .seq [e.1.1, e.1.2]) ∧ ∀ e ∈ es, e.2 = 0)) := by
    intro es hc
    cases edges with
    | notSeq => simp [cleanEdges] at hc
    | seq l =>
      cases l with
      | nil =>
        simp only [cleanEdges, Except.ok.injEq] at hc
        subst hc
        exact Or.inl rfl
      | cons e0 r =>
        rw [cleanEdges] at hc
        cases e0 with
        | notSeq => simp [cleanNonempty] at hc
        | seq l =>
          simp only [cleanNonempty] at hc
          split_ifs at hc with h1 h2
          · rcases hal : allLen l.length (PyEdge.seq l :: r) with x | b
            · rw [hal] at hc; simp at hc
            · rw [hal] at hc
              cases b with
              | false => simp at hc
              | true =>
                simp only [Except.ok.injEq] at hc
                right
                have hs := allLen_spec _ _ hal
                rw [h2] at hs
                subst hc
                constructor
                · congr 1
                  rw [List.map_map]
                  conv_lhs => rw [← List.map_id (PyEdge.seq l :: r)]
                  apply List.map_congr_left
                  intro e he
                  obtain ⟨l', rfl, hl'⟩ := hs e he
                  obtain ⟨a, b, rfl⟩ := List.length_eq_two.1 hl'
                  rfl
                · intro e he
                  obtain ⟨f, hf, rfl⟩ := List.mem_map.1 he
                  obtain ⟨l', rfl, hl'⟩ := hs f hf
                  obtain ⟨a, b, rfl⟩ := List.length_eq_two.1 hl'
                  rfl
          · rcases hal : allLen l.length (PyEdge.seq l :: r) with x | b
            · rw [hal] at hc; simp at hc
            · rw [hal] at hc
              cases b with
              | false => simp at hc
              | true =>
                simp only [Except.ok.injEq] at hc
                left
                have h3 : l.length = 3 := by
                  by_contra h3
                  exact h1 ⟨h2, h3⟩
                have hs := allLen_spec _ _ hal
                rw [h3] at hs
                subst hc
                congr 1
                rw [List.map_map]
                conv_lhs => rw [← List.map_id (PyEdge.seq l :: r)]
                apply List.map_congr_left
                intro e he
                obtain ⟨l', rfl, hl'⟩ := hs e he
                obtain ⟨a, b, c, rfl⟩ := List.length_eq_three.1 hl'
                rfl
  rcases hc : cleanEdges edges with x | es
  · rw [hc] at h; simp at h
  · rw [hc] at h
    simp only at h
    refine ⟨es, hclean es hc, ?_⟩
    unfold addEdges at h
    split_ifs at h with h1 h2
    simp only [Except.ok.injEq] at h
    subst h
    simp only
    rw [Int.toNat_of_nonneg (by omega)]
    refine ⟨?_, rfl⟩
    rw [List.all_eq_true] at h2
    intro e he
    have := h2 e he
    simp only [Bool.and_eq_true, decide_eq_true_eq] at this
    exact ⟨⟨this.1.1.1, this.1.1.2⟩, this.1.2, this.2⟩

example := C36_accepts (.seq [.seq [0, 1], .seq [2, 1]]) none _ rfl

example : mkGraph (.seq [.seq [0, 1], .seq [2, 1, 5]]) none = .error .valueError := by decide
example : (match mkGraph (.seq [.seq [0, 1, 4], .seq [2, 1, 5]]) none with
    | .ok g => g.edges .none true (some 5) | .error e => .error e) = .ok [[1, 2, 5]] := by decide +kernel

/-- the adjacency lists are symmetric: `w` occurs in the list of `v` as often as `v` in the list of `w`, and occurs at all
    exactly when the edge was given. -/
theorem C36_adjacency (es : List ((Int × Int) × Int)) (n : Option Int) (g : Graph)
    (h : mkGraph (.seq (es.map fun e => .seq [e.1.1, e.1.2, e.2])) n = .ok g) (v w : Int) :
    (w ∈ g.neighbours v ↔ ∃ c, ((v, w), c) ∈ es ∨ ((w, v), c) ∈ es)
    ∧ (g.neighbours v).count w = (g.neighbours w).count v := by
  have hg : g.es = es.map fun e => (ordered e.1.1 e.1.2, e.2) := by
    unfold mkGraph at h
    rw [clean3] at h
    simp only at h
    unfold addEdges at h
    split_ifs at h
    simp only [Except.ok.injEq] at h
    subst h
    simp only [minmax_ordered]
  constructor
  · unfold Graph.neighbours
    rw [List.mem_mergeSort, List.mem_flatMap, hg]
    constructor
    · rintro ⟨e, he, hw⟩
      obtain ⟨⟨⟨a, b⟩, c⟩, hf, rfl⟩ := List.mem_map.1 he
      refine ⟨c, ?_⟩
      simp only [ordered] at hw
      by_cases hab : a ≤ b
      · rw [if_pos hab] at hw
        simp only at hw
        rw [List.mem_append] at hw
        rcases hw with hw | hw
        · split_ifs at hw with h1
          · rw [List.mem_singleton] at hw; subst h1 hw; exact Or.inl hf
          · simp at hw
        · split_ifs at hw with h1
          · rw [List.mem_singleton] at hw; subst h1 hw; exact Or.inr hf
          · simp at hw
      · rw [if_neg hab] at hw
        simp only at hw
        rw [List.mem_append] at hw
        rcases hw with hw | hw
        · split_ifs at hw with h1
          · rw [List.mem_singleton] at hw; subst h1 hw; exact Or.inr hf
          · simp at hw
        · split_ifs at hw with h1
          · rw [List.mem_singleton] at hw; subst h1 hw; exact Or.inl hf
          · simp at hw
    · rintro ⟨c, hf | hf⟩
      · refine ⟨_, List.mem_map.2 ⟨_, hf, rfl⟩, ?_⟩
        simp only [ordered]
        by_cases hab : v ≤ w
        · rw [if_pos hab]; simp
        · rw [if_neg hab]; simp
      · refine ⟨_, List.mem_map.2 ⟨_, hf, rfl⟩, ?_⟩
        simp only [ordered]
        by_cases hab : w ≤ v
        · rw [if_pos hab]; simp
        · rw [if_neg hab]; simp
  · unfold Graph.neighbours
    rw [(List.mergeSort_perm _ _).count_eq, (List.mergeSort_perm _ _).count_eq]
    generalize g.es = l
    induction l with
    | nil => rfl
    | cons e r ih =>
      rw [List.flatMap_cons, List.flatMap_cons, List.count_append, List.count_append, ih]
      congr 1
      rw [List.count_append, List.count_append]
      by_cases h1 : e.1.1 = v <;> by_cases h2 : e.1.2 = v <;> by_cases h3 : e.1.1 = w <;> by_cases h4 : e.1.2 = w <;>
        simp_all

example := C36_adjacency [((0, 1), 4), ((2, 1), 5)] (some 4) _ rfl 1 2

/-- `Edgeless(n)` has `n` nodes and no edge. -/
theorem C36_edgeless (n : Int) (hn : 0 ≤ n) :
    ∃ g, edgeless n = .ok g ∧ (g.n : Int) = n ∧ g.edges .none false none = .ok [] := by
  refine ⟨⟨n.toNat, []⟩, ?_, Int.toNat_of_nonneg hn, rfl⟩
  unfold edgeless mkGraph
  simp only [cleanEdges, Option.getD_some]
  rw [addEdges_ok n hn [] (by simp)]
  rfl

example := C36_edgeless 3 (by decide)

/-- graphs built by the constructor have valid, ordered edges. -/
def Graph.WF (g : Graph) : Prop := ∀ e ∈ g.es, Vertex g.n e.1.1 ∧ Vertex g.n e.1.2 ∧ e.1.1 ≤ e.1.2

theorem C36_wf (edges : PyEdges) (n : Option Int) (g : Graph) (h : mkGraph edges n = .ok g) : g.WF := by
  unfold mkGraph at h
  rcases hc : cleanEdges edges with x | es
  · rw [hc] at h; simp at h
  · rw [hc] at h
    simp only at h
    unfold addEdges at h
    split_ifs at h with h1 h2
    simp only [Except.ok.injEq] at h
    subst h
    rw [List.all_eq_true] at h2
    intro e he
    simp only at he
    obtain ⟨f, hf, rfl⟩ := List.mem_map.1 he
    have := h2 f hf
    simp only [Bool.and_eq_true, decide_eq_true_eq] at this
    unfold Vertex
    simp only
    rw [Int.toNat_of_nonneg (by omega)]
    omega

example := C36_wf (.seq [.seq [0, 1], .seq [2, 1]]) none _ rfl

/-- `DoubledGraph(g)`: twice the nodes; the edges of `g` on the first half, the same edges shifted on the second half, nothing
    across — all with colour 0. -/
theorem C115_doubled_partial (g : Graph) (hg : g.WF) :
    ∃ d, doubled g = .ok d ∧ d.n = 2 * g.n
      ∧ d.es = g.es.map (fun e => (e.1, 0)) ++ g.es.map (fun e => ((e.1.1 + (g.n : Int), e.1.2 + (g.n : Int)), 0)) := by
  have hin : ((g.select false none) ++ (g.select false none).map fun e => e.map (· + (g.n : Int))).map PyEdge.seq
      = ((g.es.map Prod.fst) ++ (g.es.map fun e => (e.1.1 + (g.n : Int), e.1.2 + (g.n : Int)))).map
        fun e => PyEdge.seq [e.1, e.2] := by
    simp [Graph.select, Function.comp_def]
  have hr : doubled g = .ok ⟨2 * g.n,
      g.es.map (fun e => (e.1, 0)) ++ g.es.map (fun e => ((e.1.1 + (g.n : Int), e.1.2 + (g.n : Int)), 0))⟩ := by
    unfold doubled
    simp only
    rw [hin]
    unfold mkGraph
    rw [clean2]
    simp only [Option.getD_some]
    rw [addEdges_ok _ (by omega)]
    · congr 2
      rw [List.map_append, List.map_append, List.map_map, List.map_map, List.map_map, List.map_map]
      congr 1
      · apply List.map_congr_left
        intro e he
        have := (hg e he).2.2
        simp [ordered, this]
      · apply List.map_congr_left
        intro e he
        have := (hg e he).2.2
        simp [ordered, this]
    · intro e he
      obtain ⟨f, hf, rfl⟩ := List.mem_map.1 he
      simp only
      unfold Vertex
      rw [List.mem_append] at hf
      rcases hf with hf | hf
      · obtain ⟨e', he', rfl⟩ := List.mem_map.1 hf
        have := hg e' he'
        unfold Vertex at this
        omega
      · obtain ⟨e', he', rfl⟩ := List.mem_map.1 hf
        have := hg e' he'
        unfold Vertex at this
        simp only
        omega
  exact ⟨_, hr, rfl, rfl⟩

example := C115_doubled_partial _ (C36_wf (.seq [.seq [0, 1], .seq [2, 1]]) none _ rfl)

/-- the two halves of a doubled graph are not identical to a coloured input: the colours are lost. -/
theorem C115_doubled_colours_refuted :
    ¬ ∀ g : Graph, g.WF → ∀ d, doubled g = .ok d →
      d.es = g.es ++ g.es.map (fun e => ((e.1.1 + (g.n : Int), e.1.2 + (g.n : Int)), e.2)) := by
  intro h
  have h1 := h ⟨2, [((0, 1), 3)]⟩ (by intro e he; simp at he; subst he; simp [Vertex]) _
    (show doubled ⟨2, [((0, 1), 3)]⟩ = .ok ⟨4, [((0, 1), 0), ((2, 3), 0)]⟩ by decide +kernel)
  simp at h1

end Verif.Grf
