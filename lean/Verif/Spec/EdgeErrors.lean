import Verif.Spec.Noise
/-!
Errors of the data qubits of one row of identity gates, for C133.
-/
namespace Qtc.Spec

/-- X errors of the data qubits in `X` and Z errors of those in `Z`. -/
def dataErrs (name : Str) (X Z : Finset Nat) : Errs := fun x =>
  (decide (x.reg = name ++ "_data".toList ∧ x.idx ∈ X), decide (x.reg = name ++ "_data".toList ∧ x.idx ∈ Z))

/-- How many data qubits the measured logical operator has: the width of the lattice for Z, its height for X. -/
def lineLength (key : Key) (dh dw : Int) : Nat :=
  match key with
  | .Z => dw.toNat
  | .X => dh.toNat

end Qtc.Spec
