import Verif.Model.Decoder
/-!
The matched graph of /repo/qtcodes/fitters/lattice_decoder.py:253-292, which the README and the tutorials draw.
-/
namespace Qtc

/-- `graph.get_edge_data(i, j)`: `NoEdgeBetweenNodes` if there is none. -/
def RxGraph.edgeData {W : Type} (g : RxGraph W) (i j : Nat) : Py W :=
  match g.edges.find? (fun e => sameEnds e i j) with
  | some e => .ok e.2.2
  | none => .error .noEdge

/-- One turn of the loop over the matches, /repo/qtcodes/fitters/lattice_decoder.py:282-291. The node map has the payloads as keys. -/
def matchedStep (g : RxGraph ℝ) (e : EGraph) (p : Nat × Nat) : Py EGraph := do
  let w ← g.edgeData p.1 p.2
  let a ← g.payload p.1
  let b ← g.payload p.2
  ((e.addNew a).addNew b).addEdge a b w

/-- `matching_graph[i][0] == -1 and matching_graph[j][0] == -1`, negated; the second payload is only looked up if the first is
virtual. -/
def notBothVirtual (g : RxGraph ℝ) (p : Nat × Nat) : Py Bool := do
  let a ← g.payload p.1
  if a.t == -1 then
    let b ← g.payload p.2
    return !(b.t == -1)
  else return true

/-- A list comprehension with a condition that may raise. -/
def filterPy {α : Type} (f : α → Py Bool) : List α → Py (List α)
  | [] => .ok []
  | x :: l => do
    let b ← f x
    let r ← filterPy f l
    return if b then x :: r else r

/-- `_run_mwpm_graph`, /repo/qtcodes/fitters/lattice_decoder.py:253-292. -/
noncomputable def runMwpmGraph (m : Matcher) (g : RxGraph ℝ) (floats : Bool) : Py (RxGraph ℝ) := do
  let ps ← filterPy (notBothVirtual g) (m g.nodes.length (g.edges.map fun e => (e.1, e.2.1, weightFn floats e.2.2)))
  let e ← ps.foldlM (matchedStep g) {}
  return e.g

end Qtc
