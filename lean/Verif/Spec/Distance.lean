import Verif.Spec.Graph
/-!
A closed formula for the distance of two nodes of a decoding graph, independent of how the code builds the graph or searches paths in it
(uses only the types `Node` and `Key`).
-/
namespace Qtc.Spec

/-- How many rows (type Z) or columns (type X) of data qubits lie between the first boundary and the node. -/
def level : Key → Node → Int
  | .Z, n => (n.r2 + 1) / 2
  | .X, n => (n.c2 + 1) / 2

/-- The other coordinate, counted alike. -/
def lane : Key → Node → Int
  | .Z, n => (n.c2 + 1) / 2
  | .X, n => (n.r2 + 1) / 2

/-- Time steps between two nodes; boundary nodes belong to all times. -/
def timeApart (a b : Node) : Nat := if a.t = -1 ∨ b.t = -1 then 0 else (a.t - b.t).natAbs

/-- Diagonal steps in space and steps in time. -/
def straight (key : Key) (a b : Node) : Nat :=
  max (level key a - level key b).natAbs (lane key a - lane key b).natAbs + timeApart a b

/-- Diagonal steps from `a` to the first boundary and on to `b`. -/
def viaFirst (key : Key) (a b : Node) : Nat := max (level key a + level key b).natAbs (lane key a - lane key b).natAbs

/-- Diagonal steps from `a` to the last boundary and on to `b`. -/
def viaLast (key : Key) (dh dw : Int) (a b : Node) : Nat :=
  max (2 * distance key dh dw - level key a - level key b).natAbs (lane key a - lane key b).natAbs

/-- The least number of faults that lead from `a` to `b`: on the straight way, or around over a boundary, where time does not matter. -/
def faultsBetween (key : Key) (dh dw : Int) (a b : Node) : Nat :=
  min (straight key a b) (min (viaFirst key a b) (viaLast key dh dw a b))

end Qtc.Spec
