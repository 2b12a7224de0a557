import Verif.Spec.Matching
import Verif.Spec.Quantum
/-!
States of a lattice with given values of its plaquettes.
-/
namespace Qtc.Spec
open Qtc

/-- The plaquettes have the values `e` with certainty, and all qubits other than the data qubits are 0. -/
def CodeState (code : Code) (name : Str) (dh dw : Int) (e : Key → Int × Int → Bool) (ψ : Psi) : Prop :=
  (∀ key, ∀ p ∈ sitesOf key dh dw, HasValue (checkOp code name dh dw key p) (e key p) ψ) ∧
  ∀ x : Qubit, (∀ i ∈ allQubits dh dw, x ≠ dataQ name i) → IsZero x ψ

/-- The values of the plaquettes that the bits `m` of a syndrome register tell: first the plaquettes of type Z, row by row, then those of
type X. -/
def told (dh dw : Int) (m : Nat → Bool) : Key → Int × Int → Bool
  | .Z, p => m ((zSites dh dw).idxOf p)
  | .X, p => m ((zSites dh dw).length + (xSites dh dw).idxOf p)

end Qtc.Spec
