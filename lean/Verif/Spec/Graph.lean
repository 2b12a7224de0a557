import Mathlib.Data.Nat.Find
import Mathlib.Data.Set.Card
import Verif.Spec.Lattice
import Verif.Model.Readout
/-!
Specification of the decoding graph, independent of how the code builds it (uses only the types `Node` and `Key`).

All plaquette positions of one colour in the frame `-1 ≤ r2 ≤ 2·dh-1`, `-1 ≤ c2 ≤ 2·dw-1` are nodes. For colour Z the
positions above the top row and below the bottom row are not stabilizers but stand for the boundary; for colour X the
positions left of the first and right of the last column are. A boundary position is one node for all times,
written with time `-1`.
-/
namespace Qtc.Spec

/-- `(r2, c2)` is a plaquette position of the colour of `key` in the frame of the lattice. -/
def Pos (key : Key) (dh dw r2 c2 : Int) : Prop :=
  r2 % 2 = 1 ∧ c2 % 2 = 1 ∧ (r2 + c2) % 4 = (match key with | .X => 0 | .Z => 2) ∧
  -1 ≤ r2 ∧ r2 ≤ 2 * dh - 1 ∧ -1 ≤ c2 ∧ c2 ≤ 2 * dw - 1

/-- The stabilizer positions of a type. -/
def Site : Key → Int → Int → Int → Int → Prop
  | .X => XSite
  | .Z => ZSite

/-- The boundary positions of a type: of its colour, just outside the rows (type Z) or columns (type X). -/
def Bdry (key : Key) (dh dw r2 c2 : Int) : Prop :=
  Pos key dh dw r2 c2 ∧
    match key with
    | .X => c2 = -1 ∨ c2 = 2 * dw - 1
    | .Z => r2 = -1 ∨ r2 = 2 * dh - 1

/-- The lattice is long enough in the direction that type `key` protects for having stabilizers of this type. -/
def Long (key : Key) (dh dw : Int) : Prop :=
  OddPos dh dw ∧ match key with
    | .X => 3 ≤ dw
    | .Z => 3 ≤ dh

/-- The number of data flips it takes to flip the logical readout of type `key` unnoticed. -/
def distance (key : Key) (dh dw : Int) : Int :=
  match key with
  | .X => dw
  | .Z => dh

/-- The nodes a decoding graph for `T` time steps should have. -/
def GNode (key : Key) (dh dw T : Int) (n : Node) : Prop :=
  (0 ≤ n.t ∧ n.t < T ∧ Site key dh dw n.r2 n.c2) ∨ (n.t = -1 ∧ Bdry key dh dw n.r2 n.c2)

/-- `n` is the node of time step `t` that touches data qubit `(r, c)`: it sits at one of the four half-integer positions
around the data qubit, and has the time of the step or is a boundary node. -/
def Touches (key : Key) (dh dw : Int) (t r c : Int) (n : Node) : Prop :=
  (n.r2 = 2 * r - 1 ∨ n.r2 = 2 * r + 1) ∧ (n.c2 = 2 * c - 1 ∨ n.c2 = 2 * c + 1) ∧
  ((n.t = t ∧ Site key dh dw n.r2 n.c2) ∨ (n.t = -1 ∧ Bdry key dh dw n.r2 n.c2))

/-- The elementary fault "data qubit `(r, c)` flips just before round `t`" joins the nodes `a` and `b`. -/
def DataEdge (key : Key) (dh dw T : Int) (t r c : Int) (a b : Node) : Prop :=
  0 ≤ t ∧ t < T ∧ 0 ≤ r ∧ r < dh ∧ 0 ≤ c ∧ c < dw ∧ a ≠ b ∧ Touches key dh dw t r c a ∧ Touches key dh dw t r c b

/-- The elementary fault "a stabilizer is misread in the round between times `t` and `t+1`" joins `a` and `b`. -/
def TimeEdge (key : Key) (dh dw T : Int) (t : Int) (a b : Node) : Prop :=
  0 ≤ t ∧ t + 1 < T ∧ Site key dh dw a.r2 a.c2 ∧ a.r2 = b.r2 ∧ a.c2 = b.c2 ∧
    ((a.t = t ∧ b.t = t + 1) ∨ (a.t = t + 1 ∧ b.t = t))

/-- Two nodes are joined by some elementary fault. -/
def GAdj (key : Key) (dh dw T : Int) (a b : Node) : Prop :=
  (∃ t r c, DataEdge key dh dw T t r c a b) ∨ (∃ t, TimeEdge key dh dw T t a b)

/-- Number of plaquette positions of one colour in the frame: half of all `(dh+1)(dw+1)`. -/
def sliceSize (dh dw : Int) : Nat := ((dh + 1) * (dw + 1) / 2).toNat

/-- A path in the decoding graph, as the list of its steps; `Path a b es` goes from `a` to `b`. -/
inductive Path (adj : Node → Node → Prop) : Node → Node → List (Node × Node) → Prop where
  | nil (a : Node) : Path adj a a []
  | cons {a b c : Node} {es : List (Node × Node)} : adj a b → Path adj b c es → Path adj a c ((a, b) :: es)

/-- `n` is the length of a shortest path from `a` to `b`. -/
def IsDist (adj : Node → Node → Prop) (a b : Node) (n : Nat) : Prop :=
  (∃ es, Path adj a b es ∧ es.length = n) ∧ ∀ es, Path adj a b es → n ≤ es.length

open Classical in
/-- Length of a shortest path, `0` if there is none. -/
noncomputable def pdist (adj : Node → Node → Prop) (a b : Node) : Nat :=
  if h : ∃ n es, Path adj a b es ∧ es.length = n then Nat.find h else 0

/-- How many paths of `n` steps lead from `a` to `b`. -/
noncomputable def countPaths (adj : Node → Node → Prop) (n : Nat) (a b : Node) : Nat :=
  Set.ncard {es | Path adj a b es ∧ es.length = n}

/-- How many shortest paths lead from `a` to `b`. -/
noncomputable def numShortest (adj : Node → Node → Prop) (a b : Node) : Nat := countPaths adj (pdist adj a b) a b

/-- The step `(a, b)` of a path flips a data qubit of the top row (type Z) or left column (type X). -/
def ReadoutStep (key : Key) (dh dw T : Int) (a b : Node) : Prop :=
  ∃ t k, match key with
    | .Z => DataEdge key dh dw T t 0 k a b
    | .X => DataEdge key dh dw T t k 0 a b

open Classical in
/-- How many steps of a path flip a data qubit of the readout line. -/
noncomputable def readoutSteps (key : Key) (dh dw T : Int) (es : List (Node × Node)) : Nat :=
  es.countP fun e => decide (ReadoutStep key dh dw T e.1 e.2)

end Qtc.Spec
