import Verif.Model.Lattice
import Verif.Model.GraphConn

/-! The graph behind a lattice (netket/graph/lattice.py:327-331). -/

namespace Verif.Lat
open Verif.Hilbert (Err)

/-- lattice.py:299-331, graph.py:35-61: the graph of a lattice, to which `is_connected()` and `is_bipartite()` are passed on. All edges have
    the colour 0. -/
def Lattice.graph (L : Lattice) : Except Err Grf.Graph :=
  Grf.addEdges L.nNodes (L.edges.map fun e => (((e.1 : Int), (e.2 : Int)), 0))

end Verif.Lat
