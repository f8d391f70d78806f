import Verif.Model.Py

/-!
# The parts of `networkx.Graph` the code uses

An undirected simple graph is an insertion-ordered dictionary of nodes; every node carries an optional attribute
`'level'` and the insertion-ordered dictionary of its neighbours with the attribute `'transition'` of the edge.
networkx keeps the node dictionary and the adjacency dictionary in step, so one dictionary serves for both.
This is library behaviour (networkx 2.8, `classes/graph.py`, `algorithms/traversal/depth_first_search.py`), modelled
because the orders it fixes are visible through the Atom-Toolkit API.
-/

namespace AtomTk

/-- Node data: the `'level'` attribute and the neighbours. -/
structure NodeRec where
  level : Option Nat
  nbrs : Dict Str Nat
  deriving DecidableEq

/-- `nx.Graph` -/
abbrev Graph := Dict Str NodeRec

namespace Graph

/-- `G.add_node(n, level=l)`: used by `BaseLevel.add_to_atom` (atom.py:181). -/
def addNode (g : Graph) (n : Str) (l : Nat) : Graph :=
  match g.get? n with
  | some r => g.set n ⟨some l, r.nbrs⟩
  | none => g.set n ⟨some l, []⟩

/-- The node creation inside `G.add_edge`: no attributes. -/
def touch (g : Graph) (n : Str) : Graph :=
  match g.get? n with
  | some _ => g
  | none => g.set n ⟨none, []⟩

/-- One direction of an edge. -/
def setNbr (g : Graph) (u v : Str) (t : Nat) : Graph :=
  match g.get? u with
  | some r => g.set u ⟨r.level, r.nbrs.set v t⟩
  | none => g

/-- `G.add_edge(u, v, transition=t)`: used by `BaseTransition.add_to_atom` (atom.py:647). -/
def addEdge (g : Graph) (u v : Str) (t : Nat) : Graph :=
  setNbr (setNbr (touch (touch g u) v) u v t) v u t

/-- `G.remove_node(n)`: used by `LevelStructure.__delitem__` (atom_helpers.py:62). -/
def removeNode (g : Graph) (n : Str) : Py Graph :=
  if g.has n then .ok ((g.del n).map (fun p => (p.1, ⟨p.2.level, p.2.nbrs.del n⟩)))
  else .error .NetworkXError

/-- `G.edges(data=True)`: every edge once, from the endpoint that comes first in node order. -/
def edgesFrom (seen : List Str) : Graph → List ((Str × Str) × Nat)
  | [] => []
  | (n, r) :: rest =>
    (r.nbrs.filter (fun p => p.1 ∉ seen)).map (fun p => ((n, p.1), p.2)) ++ edgesFrom (n :: seen) rest

/-- `nx.get_edge_attributes(G, 'transition')`: every edge has the attribute. -/
def edges (g : Graph) : Dict (Str × Str) Nat := edgesFrom [] g

/-- `nx.get_node_attributes(G, 'level')`: nodes without the attribute are left out. -/
def levelAttrs (g : Graph) : Dict Str Nat :=
  g.filterMap (fun p => p.2.level.map (fun l => (p.1, l)))

/-- `G.adj[u][v]['transition']` -/
def adj (g : Graph) (u v : Str) : Option Nat :=
  match g.get? u with
  | some r => r.nbrs.get? v
  | none => none

/-- `G.nodes[n].get('level')` -/
def lev (g : Graph) (n : Str) : Option Nat := (g.get? n).bind NodeRec.level

/-- `nx.dfs_edges(G, source)` as the stack machine of networkx: `nb` lists the neighbours in iteration order.  The
default depth limit `len(G)` can never cut the search and is left out. -/
def dfsLoop (nb : Str → List Str) : Nat → List (Str × List Str) → List Str → List (Str × Str)
  | 0, _, _ => []
  | _ + 1, [], _ => []
  | f + 1, (_, []) :: st, vis => dfsLoop nb f st vis
  | f + 1, (p, c :: cs) :: st, vis =>
    if c ∈ vis then dfsLoop nb f ((p, cs) :: st) vis
    else (p, c) :: dfsLoop nb f ((c, nb c) :: (p, cs) :: st) (c :: vis)

/-- Enough fuel for a search over the nodes `V`. -/
def dfsFuel (V : List Str) (nb : Str → List Str) : Nat :=
  (V.map (fun v => (nb v).length + 1)).sum + 1

/-- `nx.dfs_edges(G, source=s)` -/
def dfsEdges (V : List Str) (nb : Str → List Str) (s : Str) : List (Str × Str) :=
  dfsLoop nb (dfsFuel V nb) [(s, nb s)] [s]

/-- The nodes reachable from `s` (what `_plain_bfs` returns as a set; computed here by the depth first search). -/
def reach (V : List Str) (nb : Str → List Str) (s : Str) : List Str :=
  s :: (dfsEdges V nb s).map Prod.snd

/-- `nx.connected_components(G)`: iterate over the nodes, start a component at every node not seen yet. -/
def compsFrom (V : List Str) (nb : Str → List Str) : List Str → List Str → List (List Str)
  | [], _ => []
  | v :: vs, seen =>
    if v ∈ seen then compsFrom V nb vs seen
    else reach V nb v :: compsFrom V nb vs (reach V nb v ++ seen)

end Graph
end AtomTk
