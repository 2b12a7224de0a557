import Verif.Spec.Noise
/-!
Errors of one kind only: the same Pauli operator on a set of data qubits.
-/
namespace Qtc.Spec

/-- The site is in the lattice. -/
def InLat (dh dw r c : Int) : Prop := 0 ≤ r ∧ r < dh ∧ 0 ≤ c ∧ c < dw

/-- The Pauli operator `a` on the data qubits of the sites in a set (data qubits are numbered row by row). -/
def onSites (a : Letter) (name : Str) (dh dw : Int) (E : Int → Int → Bool) : Op :=
  pstr (((allQubits dh dw).filter fun i => E (i / dw) (i % dw)).map fun i => (a, dataQ name i))

/-- No plaquette notices the operator. -/
def Unnoticed (code : Code) (name : Str) (dh dw : Int) (A : Op) : Prop := ∀ C ∈ checks code name dh dw, Commute A C

/-- Z errors on the data qubits of the sites in a set. -/
def zErrors (name : Str) (dh dw : Int) (E : Int → Int → Bool) : Errs := fun x =>
  (false, decide (x ∈ ((allQubits dh dw).filter fun i => E (i / dw) (i % dw)).map (dataQ name)))

end Qtc.Spec
