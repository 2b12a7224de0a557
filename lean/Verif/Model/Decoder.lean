import Mathlib.Analysis.SpecialFunctions.Log.Basic
import Verif.Model.DecoderGraph
/-!
Decoding by matching: `LatticeDecoder._make_error_graph`, `_path_degeneracy`, `_path_degeneracy_helper`, `_run_mwpm`,
`_corrections`, `correct_readout` (/repo/qtcodes/fitters/lattice_decoder.py:82-395) and
`RotatedDecoder._is_crossing_readout_path` (/repo/qtcodes/fitters/rotated_surface.py:236-263).

Simplification: floating-point numbers (distances, probabilities, logarithms) are exact reals.
The graph library `retworkx` is represented by the mathematical meaning of the functions used:
`floydWarshall` and `numShortestPaths` below; `max_weight_matching` is a parameter (`Matcher`) about which theorems only
assume its contract.
-/
namespace Qtc

/-- There is an edge between the nodes with indices `i` and `j`. -/
def RxGraph.linked {W : Type} (g : RxGraph W) (i j : Nat) : Bool := g.edges.any fun e => sameEnds e i j

/-- Walks with a given number of edges. -/
inductive RxGraph.Walk {W : Type} (g : RxGraph W) : Nat → Nat → Nat → Prop where
  | nil (i : Nat) : RxGraph.Walk g i i 0
  | cons {i j k n : Nat} : g.linked i j = true → RxGraph.Walk g j k n → RxGraph.Walk g i k (n + 1)

open Classical in
/-- `rx.graph_floyd_warshall_numpy(g)[i][j]` (called without weight function, so every edge counts `1`),
/repo/qtcodes/fitters/lattice_decoder.py:117-119: the least number of edges of a walk, `none` for `inf`. -/
noncomputable def RxGraph.floydWarshall {W : Type} (g : RxGraph W) (i j : Nat) : Option Nat :=
  if h : ∃ n, g.Walk i j n then some (Nat.find h) else none

/-- Number of walks with `n` edges from `i` to `j`. -/
def RxGraph.countWalks {W : Type} (g : RxGraph W) : Nat → Nat → Nat → Nat
  | 0, i, j => if i = j then 1 else 0
  | n + 1, i, j => ((List.range g.nodes.length).map fun k => if g.linked i k then g.countWalks n k j else 0).sum

/-- `dict(rx.num_shortest_paths_unweighted(g, a))`, /repo/qtcodes/fitters/lattice_decoder.py:248-250: the number of
shortest paths to every other reachable node; the source itself is not a key. -/
noncomputable def RxGraph.numShortestPaths {W : Type} (g : RxGraph W) (a : Nat) : Nat → Option Nat := fun b =>
  if a = b then none
  else match g.floydWarshall a b with
    | some n => some (g.countWalks n a b)
    | none => none

/-- The cache `num_shortest_paths: Dict[int, Dict[int, int]]`. -/
abbrev Cache := Nat → Option (Nat → Option Nat)

/-- `d[k]` for a dictionary. -/
def dictGet (d : Nat → Option Nat) (k : Nat) : Py Nat :=
  match d k with
  | some v => .ok v
  | none => .error .keyError

/-- `_path_degeneracy_helper`, /repo/qtcodes/fitters/lattice_decoder.py:219-251. -/
noncomputable def degHelper (g : RxGraph Int) (a b : Nat) (c : Cache) : Py (Nat × Cache) :=
  match c a with
  | some d => do return (← dictGet d b, c)
  | none => match c b with
    | some d => do return (← dictGet d a, c)
    | none => do
      let v ← dictGet (g.numShortestPaths a) b
      return (v, fun k => if k = a then some (g.numShortestPaths a) else c k)

/-- The loop over the virtual nodes in `_path_degeneracy`, /repo/qtcodes/fitters/lattice_decoder.py:205-211. -/
noncomputable def degLoop (s : SGraph) (source target : Nat) (st : Nat × Cache) (node : Node) : Py (Nat × Cache) := do
  let i ← s.idx node
  if s.g.floydWarshall source i = s.g.floydWarshall source target then do
    let r ← degHelper s.g source i st.2
    return (st.1 + r.1, r.2)
  else
    return st

/-- `_path_degeneracy` once the indices are known, /repo/qtcodes/fitters/lattice_decoder.py:193-217.
`if source:` is false for the node with index `0` as well as for `None`. -/
noncomputable def pathDegeneracyIdx (s : SGraph) (virt : List Node) (a b : Node) (ia ib : Nat) (c : Cache) :
    Py (Nat × Cache) :=
  match (if a.t = -1 then some (ib, ia) else if b.t = -1 then some (ia, ib) else none) with
  | some (source, target) =>
    if source ≠ 0 then virt.foldlM (degLoop s source target) (0, c) else degHelper s.g ia ib c
  | none => degHelper s.g ia ib c

/-- `_path_degeneracy`, /repo/qtcodes/fitters/lattice_decoder.py:153-217. -/
noncomputable def pathDegeneracy (s : SGraph) (virt : List Node) (a b : Node) (c : Cache) : Py (Nat × Cache) := do
  let ia ← s.idx a
  let ib ← s.idx b
  pathDegeneracyIdx s virt a b ia ib c

/-- `distance - math.log(deg) / (math.log1p(-1.0 * err_prob) - math.log(err_prob))`,
/repo/qtcodes/fitters/lattice_decoder.py:140-142, with Python's domain errors. -/
noncomputable def degDistance (dist : ℝ) (deg : Nat) (p : ℝ) : Py ℝ :=
  open Classical in
  if deg = 0 then .error .valueError
  else if 1 ≤ p then .error .valueError
  else if p ≤ 0 then .error .valueError
  else if Real.log (1 - p) - Real.log p = 0 then .error .zeroDivisionError
  else .ok (dist - Real.log deg / (Real.log (1 - p) - Real.log p))

/-- `if err_prob:` – neither `None` nor `0.0`. -/
noncomputable def probGiven : Option ℝ → Option ℝ
  | none => none
  | some p => open Classical in if p = 0 then none else some p

/-- The weight of the pair `(source, target)`, /repo/qtcodes/fitters/lattice_decoder.py:123-143.
An infinite distance makes `int` of the weight raise `OverflowError` (in the matching call). -/
noncomputable def pairWeight (s : SGraph) (virt : List Node) (ep : Option ℝ) (a b : Node) (c : Cache) :
    Py (ℝ × Cache) :=
  if virt.contains a && virt.contains b then .ok (0, c)
  else do
    let i ← s.idx a
    let j ← s.idx b
    match s.g.floydWarshall i j with
    | none => .error .overflowError
    | some n => match probGiven ep with
      | none => return (-1 * (n : ℝ), c)
      | some p => do
        let r ← pathDegeneracy s virt a b c
        let d ← degDistance n r.1 p
        return (-1 * d, r.2)

/-- The error graph with its `node_map`. -/
structure EGraph where
  g : RxGraph ℝ := {}
  nmap : Node → Option Nat := fun _ => none

/-- `node_map[n] = error_graph.add_node(n)`. -/
def EGraph.addNode (e : EGraph) (n : Node) : EGraph :=
  { g := e.g.addNode n, nmap := fun m => if m = n then some e.g.nodes.length else e.nmap m }

/-- `node_map[n]`. -/
def EGraph.idx (e : EGraph) (n : Node) : Py Nat :=
  match e.nmap n with
  | some i => .ok i
  | none => .error .keyError

/-- `error_graph.add_edge(node_map[a], node_map[b], w)`. -/
def EGraph.addEdge (e : EGraph) (a b : Node) (w : ℝ) : Py EGraph := do
  let i ← e.idx a
  let j ← e.idx b
  return { e with g := e.g.addEdge i j w }

/-- `if node not in error_graph.nodes(): node_map[node] = error_graph.add_node(node)`,
/repo/qtcodes/fitters/lattice_decoder.py:110-112. -/
def EGraph.addNew (e : EGraph) (n : Node) : EGraph := if e.g.nodes.contains n then e else e.addNode n

/-- `itertools.combinations(nodes, 2)`. -/
def combinations2 : List Node → List (Node × Node)
  | [] => []
  | a :: l => l.map (fun b => (a, b)) ++ combinations2 l

/-- One step of the edge loop, /repo/qtcodes/fitters/lattice_decoder.py:122-144. -/
noncomputable def pairStep (s : SGraph) (virt : List Node) (ep : Option ℝ) (st : EGraph × Cache) (p : Node × Node) :
    Py (EGraph × Cache) := do
  let r ← pairWeight s virt ep p.1 p.2 st.2
  let e ← st.1.addEdge p.1 p.2 r.1
  return (e, r.2)

/-- The extra node `(-1, -1, -1)` that makes the number of nodes even (doubled coordinates). -/
def extraNode : Node := ⟨-1, -2, -2⟩

/-- /repo/qtcodes/fitters/lattice_decoder.py:145-149: the extra node and its edges of weight `0`. -/
noncomputable def makeEven (virt : List Node) (e : EGraph) : Py EGraph :=
  virt.foldlM (fun e v => e.addEdge extraNode v 0) (e.addNode extraNode)

/-- `if make_even: ...`. -/
noncomputable def evenUp (virt : List Node) (odd : Bool) (e : EGraph) : Py EGraph := if odd then makeEven virt e else .ok e

/-- `_make_error_graph`, /repo/qtcodes/fitters/lattice_decoder.py:82-151, for the graph `s` and boundary nodes `virt` of the
key; `nodes` is the caller's list, and the second component of the result is that list after the call
(line 107, `nodes += ...`, extends it in place). -/
noncomputable def makeErrorGraph (s : SGraph) (virt : List Node) (nodes : List Node) (ep : Option ℝ) :
    Py (EGraph × List Node) := do
  let st ← (combinations2 (nodes ++ virt)).foldlM (pairStep s virt ep)
    ((nodes ++ virt).foldl EGraph.addNew {}, fun _ => none)
  let e ← evenUp virt (nodes.length % 2 != 0) st.1
  return (e, nodes ++ virt)

/-- `rx.max_weight_matching(graph, max_cardinality=True, weight_fn=...)` as a function of the number of nodes and the
integer-weighted edges. -/
abbrev Matcher := Nat → List (Nat × Nat × Int) → List (Nat × Nat)

/-- Python `int(x)` of a finite float. -/
noncomputable def pyTrunc (x : ℝ) : Int := open Classical in if 0 ≤ x then ⌊x⌋ else ⌈x⌉

/-- `weight_fn`, /repo/qtcodes/fitters/lattice_decoder.py:309. -/
noncomputable def weightFn (floats : Bool) (w : ℝ) : Int := if floats then pyTrunc (w * 10000) else pyTrunc w

/-- `matching_graph[i]`. -/
def RxGraph.payload {W : Type} (g : RxGraph W) (i : Nat) : Py Node :=
  match g.nodes[i]? with
  | some n => .ok n
  | none => .error .indexError

/-- `_run_mwpm`, /repo/qtcodes/fitters/lattice_decoder.py:294-320. -/
noncomputable def runMwpm (m : Matcher) (g : RxGraph ℝ) (floats : Bool) : Py (List (Node × Node)) := do
  let ms ← (m g.nodes.length (g.edges.map fun e => (e.1, e.2.1, weightFn floats e.2.2))).mapM fun p => do
    let a ← g.payload p.1
    let b ← g.payload p.2
    return (a, b)
  return ms.filter fun p => !(p.1.t == -1 && p.2.t == -1)

/-- The key a readout type stands for. -/
def RType.key : RType → Option Key
  | .X => some .X
  | .Z => some .Z
  | _ => Option.none

/-- `_corrections`, /repo/qtcodes/fitters/lattice_decoder.py:322-355: the matches, and the caller's list after the call.
`self.virtual[key]` and `self.S[key]` raise `KeyError` for a key without boundary nodes or graph. -/
noncomputable def corrections (D : Decoder) (m : Matcher) (nodes : List Node) (rt : RType) (ep : Option ℝ) :
    Py (List (Node × Node) × List Node) :=
  if nodes = [] then .ok ([], nodes)
  else match rt.key with
    | none => .error .keyError
    | some key => match D.S key with
      | none => .error .keyError
      | some s => do
        let r ← makeErrorGraph s (D.virt key) nodes ep
        let ms ← runMwpm m r.1.g ep.isSome
        return (ms, r.2)

/-- `_is_crossing_readout_path`, /repo/qtcodes/fitters/rotated_surface.py:236-263. -/
def isCrossing (p : Node × Node) : RType → Py Bool
  | .Z => .ok ((p.1.t == -1 && p.1.r2 == -1) || (p.2.t == -1 && p.2.r2 == -1))
  | .X => .ok ((p.1.t == -1 && p.1.c2 == -1) || (p.2.t == -1 && p.2.c2 == -1))
  | _ => .error .valueError

/-- The dictionary of syndrome hits by type. -/
abbrev SynDict := RType → Option (List Node)

/-- One step of the final loop, /repo/qtcodes/fitters/lattice_decoder.py:392-394: `(None + 1) % 2` is a `TypeError`. -/
def flipStep (rt : RType) (v : Option Int) (p : Node × Node) : Py (Option Int) := do
  if ← isCrossing p rt then
    match v with
    | some v => return some ((v + 1).fmod 2)
    | none => .error .typeError
  else
    return v

/-- `correct_readout` for a dictionary of hits, /repo/qtcodes/fitters/lattice_decoder.py:388-395. The second component is the
caller's dictionary after the call. -/
noncomputable def correctHits (D : Decoder) (m : Matcher) (syn : SynDict) (rt : RType) (val : Option Int) (ep : Option ℝ) :
    Py (Option Int × SynDict) :=
  match syn rt with
  | none => .error .keyError
  | some nodes => do
    let r ← corrections D m nodes rt ep
    let v ← r.1.foldlM (flipStep rt) val
    return (v, fun k => if k = rt then some r.2 else syn k)

/-- The dictionary built by `parse_readout`. -/
def Hits.toDict (h : Hits) : SynDict
  | .X => some h.X
  | .Z => some h.Z
  | _ => none

/-- `correct_readout` for a readout string, /repo/qtcodes/fitters/lattice_decoder.py:382-395.  The string is parsed by the
encoder of the decoder's own size. -/
noncomputable def correctString (D : Decoder) (m : Matcher) (s : Str) (rt : RType) (ep : Option ℝ) : Py (Option Int) := do
  let r ← parseReadout D.dh D.dw s rt
  let q ← correctHits D m r.2.toDict rt (some r.1) ep
  return q.1

end Qtc
