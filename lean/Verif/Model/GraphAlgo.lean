import Verif.Model.Graph
import Verif.Model.Group

/-! Model of the algorithms of netket/graph/graph.py: automorphisms, distances, conversion from igraph, disjoint unions.  igraph's search for
isomorphisms is an argument (the list it returns); breadth-first search stands for its `shortest_paths`. -/

namespace Verif.Grf
open Verif.Hilbert (Err)

/-- graph.py:196-214: `automorphisms()`; `found` is the result of `get_isomorphisms_vf2`.  The elements of the group as arrays. -/
def automorphisms (found : List (List Int)) : List (List Int) := Verif.Grp.uniqueRows found

/-- the nodes at the other end of an edge (graph.py:193 with igraph's `shortest_paths`). -/
def Graph.adjacent (g : Graph) (u v : Nat) : Bool :=
  g.es.any fun e => (decide (e.1.1 = u) && decide (e.1.2 = v)) || (decide (e.1.1 = v) && decide (e.1.2 = u))

/-- nodes found after `k` rounds of breadth-first search from `u` (graph.py:193). -/
def Graph.reach (g : Graph) (u : Nat) : Nat → List Nat
  | 0 => [u]
  | k + 1 => (List.range g.n).filter fun v => (g.reach u k).contains v || (g.reach u k).any fun w => g.adjacent w v

/-- entry of `distances()` (graph.py:192-193): igraph gives `inf`, here `none`, to nodes it does not reach. -/
def Graph.distance (g : Graph) (u v : Nat) : Option Nat := (List.range g.n).find? fun k => (g.reach u k).contains v

/-- an `igraph.Graph`: colours are absent or given for each edge, `none` for a value that is not an integer (graph.py:87-105). -/
structure IGraph where
  directed : Bool
  n : Nat
  es : List (Int × Int)
  color : Option (List (Option Int))

/-- the colours if all are integers (graph.py:100-103). -/
def intColors : List (Option Int) → Option (List Int)
  | [] => some []
  | none :: _ => none
  | some c :: r => (intColors r).map fun l => c :: l

/-- graph.py:86-105: `Graph.from_igraph`. -/
def fromIgraph (ig : IGraph) : Except Err Graph :=
  if ig.directed then .error .valueError
  else
    match ig.color with
    | none => .ok ⟨ig.n, ig.es.map fun e => (e, 0)⟩
    | some cs =>
      match intColors cs with
      | none => .error .valueError
      | some l => .ok ⟨ig.n, ig.es.zip l⟩

/-- graph.py:115-119: `to_igraph`. -/
def Graph.toIgraph (g : Graph) : IGraph := ⟨false, g.n, g.es.map Prod.fst, some (g.es.map fun e => some e.2)⟩

/-- graph.py:263-267: `disjoint_union`, igraph numbering the nodes of the second graph after those of the first and keeping the attributes. -/
def disjointUnion (g h : Graph) : Except Err Graph :=
  let a := g.toIgraph
  let b := h.toIgraph
  fromIgraph ⟨false, a.n + b.n, a.es ++ b.es.map (fun e => (e.1 + (a.n : Int), e.2 + (a.n : Int))),
    some (a.color.getD [] ++ b.color.getD [])⟩

end Verif.Grf
