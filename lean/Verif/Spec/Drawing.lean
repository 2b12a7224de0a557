import Verif.Model.Drawing
/-!
What a drawing of a graph should show.
-/
namespace Qtc.Spec

/-- The drawing has one dot for every node, at the place of the node and with the node beside it, and one line for every edge, between the
places of its ends, with the weight of the edge at `middle` of them. -/
structure Depicts {P W : Type} (place : Node → P) (middle : P → P → P) (g : RxGraph W) (p : Picture P W) : Prop where
  dots : p.dots = g.nodes.map fun n => (place n, n)
  lines : p.lines.length = g.edges.length
  labels : p.labels.length = g.edges.length
  edge : ∀ (k i j : Nat) (w : W) (a b : Node), g.edges[k]? = some (i, j, w) → g.nodes[i]? = some a → g.nodes[j]? = some b →
    p.lines[k]? = some (place a, place b) ∧ p.labels[k]? = some (middle (place a) (place b), w)

/-- The column to the right, the row downwards. -/
def flatPlace (n : Node) : ℚ × ℚ := (n.c2 / 2, -(n.r2 / 2))

/-- The column to the right, the row downwards, the time step upwards; boundary nodes (time `-1`) half-way up. -/
def solidPlace (T : Int) (n : Node) : ℚ × ℚ × ℚ := (n.c2 / 2, -(n.r2 / 2), if n.t = -1 then ((0 : ℚ) + (T - 1)) / 2 else n.t)

/-- Half-way. -/
def flatMiddle (p q : ℚ × ℚ) : ℚ × ℚ := (p.1 + (q.1 - p.1) / 2, p.2 + (q.2 - p.2) / 2)

def solidMiddle (p q : ℚ × ℚ × ℚ) : ℚ × ℚ × ℚ := (p.1 + (q.1 - p.1) / 2, p.2.1 + (q.2.1 - p.2.1) / 2, p.2.2 + (q.2.2 - p.2.2) / 2)

/-- What `draw` shows is a drawing of the graph: flat for one time step, otherwise solid. -/
def Shows {W : Type} (T : Int) (g : RxGraph W) : Shown W → Prop
  | .flat p => T ≤ 1 ∧ Depicts flatPlace flatMiddle g p
  | .solid p => 1 < T ∧ Depicts (solidPlace T) solidMiddle g p

/-- No dot covers another. -/
def DotsApart {W : Type} : Shown W → Prop
  | .flat p => (p.dots.map Prod.fst).Nodup
  | .solid p => (p.dots.map Prod.fst).Nodup

/-- No text of a line covers another. -/
def LabelsApart {W : Type} : Shown W → Prop
  | .flat p => (p.labels.map Prod.fst).Nodup
  | .solid p => (p.labels.map Prod.fst).Nodup

/-- The colours are in the range of the colour map. -/
def ColoursInRange {W : Type} : Shown W → Prop
  | .flat _ => True
  | .solid p => p.colours.length = p.dots.length ∧ ∀ c ∈ p.colours, 0 ≤ c ∧ c ≤ 1

end Qtc.Spec
