import Verif.Spec.Pairing
/-!
Smallest explanations of hits by faults.
-/
namespace Qtc.Spec

/-- The faults lie in the lattice and cause exactly these hits. -/
def Explains (key : Key) (dh dw T : Int) (L : List Node) (fs : List Fault) : Prop :=
  (∀ f ∈ fs, f.Fits key dh dw T) ∧ ∀ n, IsHit key dh dw T fs n ↔ n ∈ L

/-- … and no fewer faults do. -/
def LeastExplains (key : Key) (dh dw T : Int) (L : List Node) (fs : List Fault) : Prop :=
  Explains key dh dw T L fs ∧ ∀ fs', Explains key dh dw T L fs' → fs.length ≤ fs'.length

end Qtc.Spec
