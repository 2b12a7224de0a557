import Verif.Model.MatchedGraph
import Mathlib.Data.Rat.Defs
/-!
What the drawings of graphs show, /repo/qtcodes/fitters/lattice_decoder.py:421-558. Simplifications: matplotlib is left out but for what
is put where; a drawing is the list of dots, lines and texts with their places. Sizes, fonts, axes and the angle of view are left out,
texts of nodes and weights are the nodes and weights themselves (the code rounds weights to two or three decimals).
-/
namespace Qtc

/-- A drawing with places of type `P`: dots with the text beside them, their colours (the argument of the colour map; none are given in two
dimensions), lines, and texts of the lines. -/
structure Picture (P W : Type) where
  dots : List (P × Node) := []
  colours : List ℚ := []
  lines : List (P × P) := []
  labels : List (P × W) := []

/-- `[node[2], -node[1]]`, /repo/qtcodes/fitters/lattice_decoder.py:454. -/
def pos2D (n : Node) : ℚ × ℚ := (n.c2 / 2, -(n.r2 / 2))

/-- `node_to_pos3D`, /repo/qtcodes/fitters/lattice_decoder.py:493-495. -/
def pos3D (T : Int) (n : Node) : ℚ × ℚ × ℚ := (n.c2 / 2, -(n.r2 / 2), if n.t = -1 then (T - 1) / 2 else n.t)

/-- `(x_1 + x_2) / 2` etc., /repo/qtcodes/fitters/lattice_decoder.py:535-537; in two dimensions `mpl_draw` does the same. -/
def middle2D (p q : ℚ × ℚ) : ℚ × ℚ := ((p.1 + q.1) / 2, (p.2 + q.2) / 2)

def middle3D (p q : ℚ × ℚ × ℚ) : ℚ × ℚ × ℚ := ((p.1 + q.1) / 2, (p.2.1 + q.2.1) / 2, (p.2.2 + q.2.2) / 2)

/-- The loop over the edges: a line between the ends and a text in its middle. -/
def drawEdges {P W : Type} (pos : Node → P) (middle : P → P → P) (g : RxGraph W) : Py (List ((P × P) × P × W)) :=
  g.edges.mapM fun e => do
    let a ← g.payload e.1
    let b ← g.payload e.2.1
    let w ← g.edgeData e.1 e.2.1
    return ((pos a, pos b), middle (pos a) (pos b), w)

/-- `draw3D`, /repo/qtcodes/fitters/lattice_decoder.py:475-558. The colours divide by `T`, line 489. -/
def draw3D {W : Type} (T : Int) (g : RxGraph W) : Py (Picture (ℚ × ℚ × ℚ) W) := do
  let colours ← g.nodes.mapM fun n => if T = 0 then .error .zeroDivisionError else .ok (((n.t + 1 : Int) : ℚ) / T)
  let es ← drawEdges (pos3D T) middle3D g
  return { dots := g.nodes.map fun n => (pos3D T n, n), colours := colours, lines := es.map Prod.fst, labels := es.map Prod.snd }

/-- What is shown, in two or three dimensions. -/
inductive Shown (W : Type) where
  | flat (p : Picture (ℚ × ℚ) W)
  | solid (p : Picture (ℚ × ℚ × ℚ) W)

/-- `draw`, /repo/qtcodes/fitters/lattice_decoder.py:421-473: what is shown, and what is returned (`none` is `None`; otherwise the figure).
`mpl_draw` by contract: a dot for every node at `positions` of its index, a line for every edge with its weight in the middle. -/
def draw {W : Type} (T : Int) (g : RxGraph W) : Py (Shown W × Option (Shown W)) :=
  if T > 1 then do
    let p ← draw3D T g
    return (.solid p, none)
  else do
    let es ← drawEdges pos2D middle2D g
    let p : Picture (ℚ × ℚ) W := { dots := g.nodes.map fun n => (pos2D n, n), lines := es.map Prod.fst, labels := es.map Prod.snd }
    return (.flat p, some (.flat p))

end Qtc
