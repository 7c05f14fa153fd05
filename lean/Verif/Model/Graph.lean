import Verif.Model.DiscreteHilbert

/-! Model of netket/graph/graph.py: construction, edges with colours, doubled graphs.

The container is igraph (not part of the repository); what is assumed of it is stated in `addEdges`: edges are kept in the
order in which they were added together with their attribute, an undirected edge comes back as (smaller end, larger end),
and ends that are not vertices are an error. -/

namespace Verif.Grf
open Verif.Hilbert (Err)

/-- one element of the `edges` argument: a sequence of integers or something without length (graph.py:71-76). -/
inductive PyEdge
  | notSeq
  | seq (e : List Int)

/-- the `edges` argument (graph.py:66-69). -/
inductive PyEdges
  | notSeq
  | seq (es : List PyEdge)

/-- `len(e)` (graph.py:76), a TypeError for objects without length. -/
def PyEdge.len : PyEdge → Except Err Nat
  | .notSeq => .error .typeError
  | .seq e => .ok e.length

/-- graph.py:76: `all(len(e) == len(e0) for e in edges)`, stopping at the first difference. -/
def allLen (n : Nat) : List PyEdge → Except Err Bool
  | [] => .ok true
  | e :: r =>
    match e.len with
    | .error x => .error x
    | .ok m => if m = n then allLen n r else .ok false

/-- graph.py:80-82 for edges of length two: the ends, all colours 0. -/
def pair2 : PyEdge → (Int × Int) × Int
  | .seq [v, w] => ((v, w), 0)
  | _ => ((0, 0), 0)

/-- graph.py:80-82 for edges of length three: `(v, w, c)`. -/
def pair3 : PyEdge → (Int × Int) × Int
  | .seq [v, w, c] => ((v, w), c)
  | _ => ((0, 0), 0)

/-- graph.py:71-82: length of the first edge, comparison with the others, separation of the colours. -/
def cleanNonempty (e0 : PyEdge) (es : List PyEdge) : Except Err (List ((Int × Int) × Int)) :=
  match e0 with
  | .notSeq => .error .valueError
  | .seq l =>
    if l.length ≠ 2 ∧ l.length ≠ 3 then .error .valueError
    else match allLen l.length (e0 :: es) with
      | .error x => .error x
      | .ok false => .error .valueError
      | .ok true => .ok ((e0 :: es).map (if l.length = 2 then pair2 else pair3))

/-- graph.py:63-82: `_clean_edges`, the edges paired with their colours. -/
def cleanEdges : PyEdges → Except Err (List ((Int × Int) × Int))
  | .notSeq => .error .typeError
  | .seq [] => .ok []
  | .seq (e0 :: es) => cleanNonempty e0 es

/-- state of the graph: number of vertices, edges with colours in the order of `get_edgelist` (graph.py:56-60). -/
structure Graph where
  n : Nat
  es : List ((Int × Int) × Int)
deriving DecidableEq

/-- graph.py:52-54: `max(max(e) for e in edges) + 1`, or 0 without edges. -/
def defaultNodes : List ((Int × Int) × Int) → Int
  | [] => 0
  | e :: r => r.foldl (fun m f => max m (max f.1.1 f.1.2)) (max e.1.1 e.1.2) + 1

/-- graph.py:57-58: igraph's `add_vertices` (negative numbers are rejected) and `add_edges`. -/
def addEdges (n : Int) (es : List ((Int × Int) × Int)) : Except Err Graph :=
  if n < 0 then .error .runtimeError
  else if es.all (fun e => decide (0 ≤ e.1.1) && decide (e.1.1 < n) && decide (0 ≤ e.1.2) && decide (e.1.2 < n)) then
    .ok ⟨n.toNat, es.map fun e => ((min e.1.1 e.1.2, max e.1.1 e.1.2), e.2)⟩
  else .error .runtimeError

/-- graph.py:35-61: `Graph(edges, n_nodes)`. -/
def mkGraph (edges : PyEdges) (nNodes : Option Int) : Except Err Graph :=
  match cleanEdges edges with
  | .error e => .error e
  | .ok es => addEdges (nNodes.getD (defaultNodes es)) es

/-- graph.py:140-148: `n_nodes`, `n_edges`. -/
def Graph.nEdges (g : Graph) : Nat := g.es.length

/-- the `color` argument of `edges` (graph.py:160-170). -/
inductive ColorArg
  | none
  | bool (b : Bool)
  | int (c : Int)
  | other

/-- graph.py:172-180: the selection once the deprecated argument is resolved. -/
def Graph.select (g : Graph) (returnColor : Bool) (filterColor : Option Int) : List (List Int) :=
  if !returnColor && filterColor.isNone then g.es.map fun e => [e.1.1, e.1.2]
  else
    let sel := match filterColor with
      | none => g.es
      | some c => g.es.filter fun e => decide (e.2 = c)
    if returnColor then sel.map fun e => [e.1.1, e.1.2, e.2] else sel.map fun e => [e.1.1, e.1.2]

/-- graph.py:152-180: `edges(color, return_color, filter_color)`; edges are lists of length two or three. -/
def Graph.edges (g : Graph) (color : ColorArg) (returnColor : Bool) (filterColor : Option Int) :
    Except Err (List (List Int)) :=
  match color with
  | .none => .ok (g.select returnColor filterColor)
  | .bool b => .ok (g.select b filterColor)
  | .int c => .ok (g.select returnColor (some c))
  | .other => .error .typeError

/-- graph.py:182-189: `edge_colors`. -/
def Graph.edgeColors (g : Graph) : List Int := if 0 < g.nEdges then g.es.map Prod.snd else []

/-- graph.py:128-129 with igraph's `get_adjlist`: the other ends of the edges at `v`, in igraph's sorted order, loops twice. -/
def Graph.neighbours (g : Graph) (v : Int) : List Int :=
  (g.es.flatMap fun e => (if e.1.1 = v then [e.1.2] else []) ++ (if e.1.2 = v then [e.1.1] else [])).mergeSort
    (fun a b => decide (a ≤ b))

/-- graph.py:221-239: `Edgeless(n)`. -/
def edgeless (n : Int) : Except Err Graph := mkGraph (.seq []) (some n)

/-- graph.py:242-260: `DoubledGraph(graph)`: the edges without their colours and their shifted copies. -/
def doubled (g : Graph) : Except Err Graph :=
  let ed := g.select false none
  mkGraph (.seq ((ed ++ ed.map fun e => e.map (· + (g.n : Int))).map .seq)) (some (2 * (g.n : Int)))

end Verif.Grf
