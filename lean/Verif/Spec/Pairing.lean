import Verif.Spec.Distance
import Verif.Spec.Matching
/-!
What decoding by matching should compute, without graphs: the hits are split into pairs and single ones as cheaply as possible, and the value
is flipped for every single one that is nearer to the boundary along which the value is read.
-/
namespace Qtc.Spec

/-- Faults between a hit and the nearer boundary. -/
def toBoundary (key : Key) (dh dw : Int) (n : Node) : Nat := (min (level key n) (distance key dh dw - level key n)).natAbs

/-- The hits split into pairs and single ones. -/
def Split (L : List Node) (P : List (Node × Node)) (Q : List Node) : Prop := (ends P ++ Q).Perm L

/-- How many faults the split stands for. -/
def splitCost (key : Key) (dh dw : Int) (P : List (Node × Node)) (Q : List Node) : Nat :=
  (P.map fun p => faultsBetween key dh dw p.1 p.2).sum + (Q.map (toBoundary key dh dw)).sum

/-- Is the number of hits that are nearer to the first boundary odd? -/
def oddFirst (key : Key) (dh dw : Int) (Q : List Node) : Bool := xorAll (Q.map fun n => decide (2 * level key n < distance key dh dw))

/-- No split is cheaper. -/
def Cheapest (key : Key) (dh dw : Int) (L : List Node) (P : List (Node × Node)) (Q : List Node) : Prop :=
  Split L P Q ∧ ∀ P' Q', Split L P' Q' → splitCost key dh dw P Q ≤ splitCost key dh dw P' Q'

/-- The pairs of hits and the single hits in a list of matches. -/
def splitOf (M : List (Node × Node)) : List (Node × Node) × List Node :=
  (M.filter fun p => p.1.t != -1 && p.2.t != -1,
   M.filterMap fun p => if p.1.t = -1 then some p.2 else if p.2.t = -1 then some p.1 else none)

/-! ### Search through all splits -/

/-- All ways to split a list of at most `n` hits. -/
def splits : Nat → List Node → List (List (Node × Node) × List Node)
  | 0, _ => [([], [])]
  | _ + 1, [] => [([], [])]
  | n + 1, a :: l => (splits n l).map (fun x => (x.1, a :: x.2)) ++
      l.flatMap fun b => (splits n (l.erase b)).map fun x => ((a, b) :: x.1, x.2)

/-- The cost of a cheapest split, found by trying all. -/
def leastCost (key : Key) (dh dw : Int) (L : List Node) : Nat :=
  ((splits L.length L).map fun x => splitCost key dh dw x.1 x.2).foldl min (L.map (toBoundary key dh dw)).sum

/-- The parities of the cheapest splits. -/
def cheapParities (key : Key) (dh dw : Int) (L : List Node) : List Bool :=
  ((splits L.length L).filter fun x => splitCost key dh dw x.1 x.2 == leastCost key dh dw L).map fun x => oddFirst key dh dw x.2

end Qtc.Spec
