import Verif.Model.Linked

/-! # `draw_levels` (render/grotrian.py:11-29)

What networkx is given to draw: the places of the nodes and the pairs of nodes joined by lines.  networkx raises if a node of the graph
has no place.

Simplification: the edges of the hyperfine and Zeeman graphs, which are not part of the state, are a parameter. -/

namespace AtomTk

/-- The parameter `plot_type` (render/grotrian.py:11, 17-22); any other text means the levels. -/
inductive PlotType
  | norm
  | hf
  | z
  deriving DecidableEq

/-- A drawing: the nodes with their places, and the lines. -/
structure Drawing where
  nodes : List (Str × (Option ℚ × ℚ))
  lines : List (Str × Str)
  deriving DecidableEq

/-- The place of one node; networkx raises if there is none. -/
def nxPlace (pos : Dict Str (Option ℚ × ℚ)) (n : Str) : Py (Str × (Option ℚ × ℚ)) :=
  match pos.get? n with
  | some p => .ok (n, p)
  | none => .error .NetworkXError

/-- `nx.draw(model, pos=positions, ...)` (render/grotrian.py:28) on the nodes and edges of the graph. -/
def nxDraw (pos : Dict Str (Option ℚ × ℚ)) (nodes : List Str) (edges : List (Str × Str)) : Py Drawing := do
  let ps ← nodes.mapM (nxPlace pos)
  .ok ⟨ps, edges⟩

namespace World

/-- `positions` (render/grotrian.py:16). -/
def positions (w : World) : Dict Str (Option ℚ × ℚ) :=
  Dict.ofList (w.g.levelAttrs.vals.map fun i => (w.lname i, ((w.lv i).term.J, w.eHz i / 10 ^ 12)))

/-- The loop over `model.remove_edge(node, node)` (render/grotrian.py:23-27), on the copy of the graph. -/
def unloop (es : List (Str × Str)) : List (Str × Str) := es.filter fun e => e.1 ≠ e.2

/-- `draw_levels(atom, plot_type)` (render/grotrian.py:11-29).  `hes` and `zes` are the edges of the hyperfine and Zeeman graphs. -/
def drawLevels (w : World) (hes zes : List (Str × Str)) : PlotType → Py Drawing
  | .hf => nxDraw w.positions (((List.range w.nhf).map w.hFull).dedup) (unloop hes)
  | .z => nxDraw w.positions (((List.range w.nzl).map w.zFull).dedup) (unloop zes)
  | .norm => nxDraw w.positions w.g.keys (unloop w.g.edges.keys)

end World
end AtomTk
