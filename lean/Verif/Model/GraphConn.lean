import Verif.Model.GraphAlgo

/-! Connectedness and bipartiteness of graphs (netket/graph/graph.py:133-137). igraph's searches are breadth-first searches. -/

namespace Verif.Grf

/-- graph.py:133-134: `is_connected()`; igraph counts the nodes that a search from node 0 finds. What igraph says about a graph without
    nodes depends on its version and is left open. -/
def Graph.isConnected (g : Graph) : Bool := (List.range g.n).all fun v => (g.distance 0 v).isSome

/-- graph.py:136-137: the node from which igraph's search finds `v`: the first node with a path to it. -/
def Graph.root (g : Graph) (v : Nat) : Nat := ((List.range g.n).find? fun u => (g.distance u v).isSome).getD v

/-- graph.py:136-137: the type igraph's search gives to `v`, alternating with every step from the root. -/
def Graph.side (g : Graph) (v : Nat) : Bool := ((g.distance (g.root v) v).getD 0) % 2 == 1

/-- graph.py:136-137: `is_bipartite()`; igraph checks that no edge connects two nodes of the same type. -/
def Graph.isBipartite (g : Graph) : Bool := g.es.all fun e => g.side e.1.1.toNat != g.side e.1.2.toNat

end Verif.Grf
