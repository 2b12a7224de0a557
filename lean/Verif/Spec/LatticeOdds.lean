import Verif.Spec.Chance
/-!
The observables of a readout of all data qubits.
-/
namespace Qtc.Spec
open Qtc

/-- What `lattice_readout_z` and `lattice_readout_x` read at data qubit `i`: Z and X; for the XZZX code exchanged at qubits with even
number. -/
def readLetter : Code → Key → Int → Letter
  | .xxzz, .X, _ => .X
  | .xxzz, .Z, _ => .Z
  | .xzzx, .X, i => if i % 2 = 0 then .Z else .X
  | .xzzx, .Z, i => if i % 2 = 0 then .X else .Z

/-- The observables of a readout of all data qubits, in the order of the bits. -/
def readOps (code : Code) (name : Str) (dh dw : Int) (key : Key) : List Op :=
  (allQubits dh dw).map fun i => (readLetter code key i).op (dataQ name i)

end Qtc.Spec
