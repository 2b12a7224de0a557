import Verif.Model.Readout
/-!
Construction of the decoding graphs: `RotatedDecoder._specify_virtual`, `_valid_syndrome`,
`_populate_syndrome_graph`, `_make_syndrome_graph` and `LatticeDecoder.__init__`,
/repo/qtcodes/fitters/rotated_surface.py:50-234 and /repo/qtcodes/fitters/lattice_decoder.py:35-44.
Coordinates are stored doubled (`0.5` is `1`).
-/
namespace Qtc

/-- A `retworkx.PyGraph(multigraph=False)`: node payloads by index, and weighted edges `(i, j, w)`. -/
structure RxGraph (W : Type) where
  nodes : List Node := []
  edges : List (Nat × Nat × W) := []

/-- Do the edge `e` and the pair `{i, j}` have the same ends? -/
def sameEnds {W : Type} (e : Nat × Nat × W) (i j : Nat) : Bool :=
  (e.1 == i && e.2.1 == j) || (e.1 == j && e.2.1 == i)

/-- `PyGraph.add_node(payload)`; the index of the new node is the old number of nodes. -/
def RxGraph.addNode {W : Type} (g : RxGraph W) (n : Node) : RxGraph W := { g with nodes := g.nodes ++ [n] }

/-- `PyGraph.add_edge(i, j, w)` with `multigraph=False`: an existing edge gets the new weight. -/
def RxGraph.addEdge {W : Type} (g : RxGraph W) (i j : Nat) (w : W) : RxGraph W :=
  if g.edges.any (fun e => sameEnds e i j) then
    { g with edges := g.edges.map (fun e => if sameEnds e i j then (e.1, e.2.1, w) else e) }
  else
    { g with edges := g.edges ++ [(i, j, w)] }

/-- `self.S[key]` together with `self.node_map[key]` (a dictionary from node to index). -/
structure SGraph where
  g : RxGraph Int := {}
  nmap : Node → Option Nat := fun _ => none

/-- `self.node_map[key][n] = self.S[key].add_node(n)`,
/repo/qtcodes/fitters/rotated_surface.py:64-66,139-141,158-160. -/
def SGraph.addNode (s : SGraph) (n : Node) : SGraph :=
  { g := s.g.addNode n, nmap := fun m => if m = n then some s.g.nodes.length else s.nmap m }

/-- `self.node_map[key][n]`: `KeyError` if absent. -/
def SGraph.idx (s : SGraph) (n : Node) : Py Nat :=
  match s.nmap n with
  | some i => .ok i
  | none => .error .keyError

/-- `self.S[key].add_edge(self.node_map[key][a], self.node_map[key][b], 1)`,
/repo/qtcodes/fitters/rotated_surface.py:78-82,143-147,161-165. Every call passes weight `1`. -/
def SGraph.addEdge (s : SGraph) (a b : Node) : Py SGraph := do
  let i ← s.idx a
  let j ← s.idx b
  return { s with g := s.g.addEdge i j 1 }

/-- `_specify_virtual`, /repo/qtcodes/fitters/rotated_surface.py:209-234. -/
def virtualNodes (dh dw : Int) : Key → List Node
  | .Z => (pyRangeStep dw 2).flatMap fun j => [⟨-1, -1, 2 * j - 1⟩, ⟨-1, 2 * dh - 1, 2 * j + 1⟩]
  | .X => (pyRangeStep dh 2).flatMap fun j => [⟨-1, 2 * j + 1, -1⟩, ⟨-1, 2 * j - 1, 2 * dw - 1⟩]

/-- `_valid_syndrome`, /repo/qtcodes/fitters/rotated_surface.py:179-207, for the two valid keys. -/
def validSyndrome (dh dw : Int) (key : Key) (i j : Int) : Bool :=
  match key with
  | .Z => 0 < i && i < 2 * (dh - 1) && j < 2 * dw && -2 < j
  | .X => 0 < j && j < 2 * (dw - 1) && i < 2 * dh && -2 < i

/-- The four diagonal positions, /repo/qtcodes/fitters/rotated_surface.py:107-113. -/
def diagonals (n : Node) : List (Int × Int) :=
  [(n.r2 - 2, n.c2 - 2), (n.r2 + 2, n.c2 - 2), (n.r2 - 2, n.c2 + 2), (n.r2 + 2, n.c2 + 2)]

/-- The neighbours of `cur` that are still to be visited, real ones first, as full nodes,
/repo/qtcodes/fitters/rotated_surface.py:115-126. -/
def pending (dh dw : Int) (key : Key) (t : Int) (vis : List Node) (cur : Node) : List Node :=
  (((diagonals cur).filter fun n => validSyndrome dh dw key n.1 n.2 && !(vis.contains ⟨t, n.1, n.2⟩)).map
    fun n => ⟨t, n.1, n.2⟩) ++
  (((diagonals cur).filter fun n =>
      (virtualNodes dh dw key).contains ⟨-1, n.1, n.2⟩ && !(vis.contains ⟨-1, n.1, n.2⟩)).map
    fun n => ⟨-1, n.1, n.2⟩)

/-- One step of the loops of /repo/qtcodes/fitters/rotated_surface.py:132-165: add the neighbour if it is new, then the
edge to it. -/
def linkNbr (cur : Node) (s : SGraph) (n : Node) : Py SGraph :=
  if s.g.nodes.contains n then s.addEdge cur n else (s.addNode n).addEdge cur n

/-- `_populate_syndrome_graph`, /repo/qtcodes/fitters/rotated_surface.py:84-177.
`visited_nodes` and the graph are threaded explicitly. The first argument is the number of nested calls Python still
allows; when it is used up Python raises `RecursionError`. The code loops over the real and then over the virtual
neighbours with the same loop body, first to link them, then to recurse; here each of these is one loop over the
concatenated list. -/
def populate (dh dw : Int) (key : Key) (t : Int) : Nat → Node → List Node → SGraph → Py (List Node × SGraph)
  | 0, _, _, _ => .error .recursionError
  | fuel + 1, cur, vis, s => do
    let s' ← (pending dh dw key t (vis ++ [cur]) cur).foldlM (linkNbr cur) s
    (pending dh dw key t (vis ++ [cur]) cur).foldlM
      (fun st n => populate dh dw key t fuel n st.1 st.2) (vis ++ [cur], s')

/-- `start_nodes`, /repo/qtcodes/fitters/rotated_surface.py:58. -/
def startNode (key : Key) (t : Int) : Node :=
  match key with
  | .Z => ⟨t, 1, 1⟩
  | .X => ⟨t, 1, 3⟩

/-- One time step of the first loop of `_make_syndrome_graph`, /repo/qtcodes/fitters/rotated_surface.py:61-69. -/
def timeSlice (dh dw : Int) (key : Key) (limit : Nat) (s : SGraph) (t : Int) : Py SGraph := do
  let r ← populate dh dw key t limit (startNode key t) [] (s.addNode (startNode key t))
  return r.2

/-- The edges in time direction at one location, /repo/qtcodes/fitters/rotated_surface.py:77-82. -/
def timeEdges (T : Int) (s : SGraph) (n : Node) : Py SGraph :=
  (pyRange (T - 1)).foldlM (fun s t => s.addEdge ⟨t, n.r2, n.c2⟩ ⟨t + 1, n.r2, n.c2⟩) s

/-- `_make_syndrome_graph` for one key, /repo/qtcodes/fitters/rotated_surface.py:50-82.
`limit` is the number of nested calls the interpreter allows. -/
def makeSyndromeGraph (dh dw T : Int) (limit : Nat) (key : Key) : Py SGraph := do
  let s ← (pyRange T).foldlM (timeSlice dh dw key limit) {}
  (s.g.nodes.filter fun n => n.t == 0).foldlM (timeEdges T) s

/-- A decoder object: its sizes, the graphs it built (one per key in `syndrome_graph_keys`), and its boundary nodes. -/
structure Decoder where
  dh : Int
  dw : Int
  T : Int
  S : Key → Option SGraph
  virt : Key → List Node

/-- The sizes a validated decoder works with: both entries of `params["d"]` and `params["T"]` as integers.
`range(0, dw, 2)` (and `range(0, T)`) raises `TypeError` for a float, even an integral one. -/
def decoderSizes (p : Params) : Py (Int × Int × Int) :=
  match p.d, p.T with
  | some (.tup [.int dh, .int dw]), some T => .ok (dh, dw, T)
  | some (.lst [.int dh, .int dw]), some T => .ok (dh, dw, T)
  | _, _ => .error .typeError

/-- The graphs for all keys in order, /repo/qtcodes/fitters/rotated_surface.py:59 and lattice_decoder.py:39-44. -/
def buildGraphs (dh dw T : Int) (limit : Nat) (keys : List Key) : Py (Key → Option SGraph) :=
  keys.foldlM (fun S k => do
    let s ← makeSyndromeGraph dh dw T limit k
    return fun k' => if k' = k then some s else S k') (fun _ => none)

/-- The part of `LatticeDecoder.__init__` after validation, /repo/qtcodes/fitters/lattice_decoder.py:39-44. -/
def decoderOf (p : Params) (keys : List Key) (limit : Nat) : Py Decoder := do
  let (dh, dw, T) ← decoderSizes p
  let S ← buildGraphs dh dw T limit keys
  return { dh, dw, T, S, virt := virtualNodes dh dw }

/-- `RotatedDecoder(params)`. -/
def rotatedDecoder (limit : Nat) (p : Params) : Py Decoder := do
  let p ← rotatedDecoderValidate p
  decoderOf p [.X, .Z] limit

/-- `RepetitionDecoder(params)`, /repo/qtcodes/fitters/repetition.py:10-25. -/
def repetitionDecoder (limit : Nat) (p : Params) : Py Decoder := do
  let (p, keys) ← repDecoderValidate p
  decoderOf p keys limit

end Qtc
