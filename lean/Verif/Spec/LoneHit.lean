import Verif.Spec.Matching
/-!
Which edge a stabilizer is nearer to, for C132.
-/
namespace Qtc.Spec

/-- Is the stabilizer nearer to the edge on which the logical operator is measured (the upper edge for Z, the left edge for X) than to the
opposite one? The distances are odd, so it is never as near to both. -/
def nearReadout (key : Key) (dh dw : Int) (p : Int × Int) : Bool :=
  match key with
  | .Z => decide (p.1 + 1 < dh)
  | .X => decide (p.2 + 1 < dw)

/-- How many data qubits lie between the stabilizer and the nearer edge. -/
def edgeDist (key : Key) (dh dw : Int) (p : Int × Int) : Int :=
  match key with
  | .Z => min ((p.1 + 1) / 2) (dh - (p.1 + 1) / 2)
  | .X => min ((p.2 + 1) / 2) (dw - (p.2 + 1) / 2)

end Qtc.Spec
